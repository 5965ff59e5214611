import Verif.Props.KfacInverseBound
import Verif.Props.LossOptions

/-!
# C115: how inverses of KFAC with different dampings compare

`E ≼ E'` if `v·Ev ≤ v·E'v` for all `v`. Damping of the factors damps their Kronecker product more than exact damping with
the product of the two dampings, so its inverse is smaller. More damping gives smaller inverses. With the heuristic, blocks
of separately treated biases are an exception to the first statement.
-/

namespace Curvlinops

variable {Θ B G : Type}

/-- Specification: `v·Ev ≤ v·E'v` for all vectors with `N` entries (Loewner order). -/
def LoewnerLe (N : Nat) (E E' : Mat ℝ) : Prop :=
  ∀ v : Nat → ℝ, ∑ r ∈ Finset.range N, v r * ∑ k ∈ Finset.range N, E r k * v k ≤
    ∑ r ∈ Finset.range N, v r * ∑ k ∈ Finset.range N, E' r k * v k

theorem LoewnerLe.trans {N : Nat} {E E' E'' : Mat ℝ} (h : LoewnerLe N E E') (h' : LoewnerLe N E' E'') : LoewnerLe N E E'' :=
  fun v => (h v).trans (h' v)

/-- Diagonal entries are ordered in the same way. -/
theorem LoewnerLe.diag {N : Nat} {E E' : Mat ℝ} (h : LoewnerLe N E E') : ∀ r < N, E r r ≤ E' r r := by
  intro r hr
  have key : ∀ M : Mat ℝ, ∑ p ∈ Finset.range N, (if p = r then (1 : ℝ) else 0) *
      ∑ k ∈ Finset.range N, M p k * (if k = r then 1 else 0) = M r r := by
    intro M
    rw [Finset.sum_eq_single r, Finset.sum_eq_single r]
    · simp
    · intro k _ hk
      simp [hk]
    · exact fun hn => absurd (Finset.mem_range.mpr hr) hn
    · intro k _ hk
      simp [hk]
    · exact fun hn => absurd (Finset.mem_range.mpr hr) hn
  have := h fun p => if p = r then 1 else 0
  rwa [key, key] at this

/-- Inversion reverses the order. -/
theorem matInv_antitone (N : Nat) (D D' E E' : Mat ℝ) (hs : ∀ r < N, ∀ k < N, D r k = D k r)
    (h0 : ∀ v : Nat → ℝ, 0 ≤ ∑ r ∈ Finset.range N, v r * ∑ k ∈ Finset.range N, D r k * v k) (hle : LoewnerLe N D D')
    (h : MatInv N D E) (h' : MatInv N D' E') : LoewnerLe N E' E := by
  have apply_inv : ∀ (D E : Mat ℝ), MatInv N D E → ∀ v : Nat → ℝ, ∀ r < N,
      ∑ m ∈ Finset.range N, D r m * (∑ k ∈ Finset.range N, E m k * v k) = v r := by
    intro D E h v r hr
    simp only [Finset.mul_sum]
    rw [Finset.sum_comm]
    have : ∀ k ∈ Finset.range N, ∑ m ∈ Finset.range N, D r m * (E m k * v k) = (if r = k then 1 else 0) * v k := by
      intro k hk
      rw [← (h r hr k (Finset.mem_range.mp hk)).1, Finset.sum_mul]
      exact Finset.sum_congr rfl fun m _ => by ring
    rw [Finset.sum_congr rfl this, Finset.sum_eq_single r]
    · simp
    · intro k _ hk
      simp [Ne.symm hk]
    · exact fun hn => absurd (Finset.mem_range.mpr hr) hn
  intro v
  obtain ⟨x, hx⟩ : ∃ x : Nat → ℝ, x = fun r => ∑ k ∈ Finset.range N, E r k * v k := ⟨_, rfl⟩
  obtain ⟨y, hy⟩ : ∃ y : Nat → ℝ, y = fun r => ∑ k ∈ Finset.range N, E' r k * v k := ⟨_, rfl⟩
  have hDx : ∀ r < N, ∑ k ∈ Finset.range N, D r k * x k = v r := by rw [hx]; exact apply_inv D E h v
  have hDy : ∀ r < N, ∑ k ∈ Finset.range N, D' r k * y k = v r := by rw [hy]; exact apply_inv D' E' h' v
  have e1 : ∑ r ∈ Finset.range N, v r * ∑ k ∈ Finset.range N, E r k * v k = ∑ r ∈ Finset.range N, v r * x r := by rw [hx]
  have e2 : ∑ r ∈ Finset.range N, v r * ∑ k ∈ Finset.range N, E' r k * v k = ∑ r ∈ Finset.range N, v r * y r := by rw [hy]
  rw [e1, e2]
  have q := h0 fun r => x r - y r
  have q1 : ∑ r ∈ Finset.range N, (x r - y r) * ∑ k ∈ Finset.range N, D r k * (x k - y k) =
      ∑ r ∈ Finset.range N, x r * ∑ k ∈ Finset.range N, D r k * x k - ∑ r ∈ Finset.range N, x r * ∑ k ∈ Finset.range N, D r k * y k -
        ∑ r ∈ Finset.range N, y r * ∑ k ∈ Finset.range N, D r k * x k + ∑ r ∈ Finset.range N, y r * ∑ k ∈ Finset.range N, D r k * y k := by
    rw [← Finset.sum_sub_distrib, ← Finset.sum_sub_distrib, ← Finset.sum_add_distrib]
    refine Finset.sum_congr rfl fun r _ => ?_
    simp only [mul_sub, Finset.sum_sub_distrib]
    ring
  have q2 : ∑ r ∈ Finset.range N, x r * ∑ k ∈ Finset.range N, D r k * y k = ∑ r ∈ Finset.range N, y r * ∑ k ∈ Finset.range N, D r k * x k := by
    simp only [Finset.mul_sum]
    rw [Finset.sum_comm]
    refine Finset.sum_congr rfl fun r hr => Finset.sum_congr rfl fun k hk => ?_
    rw [hs k (Finset.mem_range.mp hk) r (Finset.mem_range.mp hr)]
    ring
  have q3 : ∑ r ∈ Finset.range N, x r * ∑ k ∈ Finset.range N, D r k * x k = ∑ r ∈ Finset.range N, v r * x r :=
    Finset.sum_congr rfl fun r hr => by rw [hDx r (Finset.mem_range.mp hr), mul_comm]
  have q4 : ∑ r ∈ Finset.range N, y r * ∑ k ∈ Finset.range N, D r k * x k = ∑ r ∈ Finset.range N, v r * y r :=
    Finset.sum_congr rfl fun r hr => by rw [hDx r (Finset.mem_range.mp hr), mul_comm]
  have q5 : ∑ r ∈ Finset.range N, y r * ∑ k ∈ Finset.range N, D' r k * y k = ∑ r ∈ Finset.range N, v r * y r :=
    Finset.sum_congr rfl fun r hr => by rw [hDy r (Finset.mem_range.mp hr), mul_comm]
  have q6 := hle y
  rw [q1, q2, q3, q4] at q
  rw [q5] at q6
  linarith

/-! ## Quadratic forms of blocks -/

/-- The quadratic form of a block. -/
def KBlock.quad (b : KBlock ℝ) (v : Nat → ℝ) : ℝ :=
  ∑ i : Fin b.rows, ∑ j : Fin b.cols, v (b.idx i j) *
    ∑ i' ∈ Finset.range b.rows, ∑ j' ∈ Finset.range b.cols, b.B i i' * b.A j' j * v (b.idx i' j')

/-- The squared norm of the entries of a block. -/
def KBlock.sq (b : KBlock ℝ) (v : Nat → ℝ) : ℝ := ∑ i : Fin b.rows, ∑ j : Fin b.cols, v (b.idx i j) * v (b.idx i j)

theorem kron_quad (bs : List (KBlock ℝ)) (N : Nat) (h : Tiles bs N) (M : Mat ℝ) (hM : IsKron bs M) (v : Nat → ℝ) :
    ∑ r ∈ Finset.range N, v r * ∑ k ∈ Finset.range N, M r k * v k = (bs.map fun b => b.quad v).sum := by
  rw [h.sum_eq]
  simp only [h.sum_eq (bs := bs)]
  have hterm : ∀ x : KIdx bs, ∑ y : KIdx bs, M x.pos y.pos * v y.pos =
      ∑ i ∈ Finset.range (bs[x.1]).rows, ∑ j ∈ Finset.range (bs[x.1]).cols,
        (bs[x.1]).B x.2.1 i * (bs[x.1]).A j x.2.2 * v ((bs[x.1]).idx i j) := by
    intro x
    rw [← KIdx.sum_entry]
    exact Finset.sum_congr rfl fun y _ => by rw [hM]
  simp only [hterm]
  rw [Fintype.sum_sigma, ← Fin.sum_univ_fun_getElem]
  refine Finset.sum_congr rfl fun l _ => ?_
  rw [Fintype.sum_prod_type]
  rfl

theorem tiles_sq (bs : List (KBlock ℝ)) (N : Nat) (h : Tiles bs N) (v : Nat → ℝ) :
    ∑ r ∈ Finset.range N, v r * v r = (bs.map fun b => b.sq v).sum := by
  rw [h.sum_eq, Fintype.sum_sigma, ← Fin.sum_univ_fun_getElem]
  refine Finset.sum_congr rfl fun l _ => ?_
  rw [Fintype.sum_prod_type]
  rfl

theorem KBlock.sq_nonneg (b : KBlock ℝ) (v : Nat → ℝ) : 0 ≤ b.sq v :=
  Finset.sum_nonneg fun _ _ => Finset.sum_nonneg fun _ _ => mul_self_nonneg _

theorem KBlock.quad_addA (b : KBlock ℝ) (A : Mat ℝ) (v : Nat → ℝ) :
    { b with A := fun i j => b.A i j + A i j }.quad v = b.quad v + { b with A := A }.quad v := by
  unfold KBlock.quad
  rw [← Finset.sum_add_distrib]
  refine Finset.sum_congr rfl fun i _ => ?_
  rw [← Finset.sum_add_distrib]
  refine Finset.sum_congr rfl fun j _ => ?_
  rw [← mul_add, ← Finset.sum_add_distrib]
  congr 1
  refine Finset.sum_congr rfl fun i' _ => ?_
  rw [← Finset.sum_add_distrib]
  exact Finset.sum_congr rfl fun j' _ => by ring

theorem KBlock.quad_addB (b : KBlock ℝ) (B : Mat ℝ) (v : Nat → ℝ) :
    { b with B := fun i j => b.B i j + B i j }.quad v = b.quad v + { b with B := B }.quad v := by
  unfold KBlock.quad
  rw [← Finset.sum_add_distrib]
  refine Finset.sum_congr rfl fun i _ => ?_
  rw [← Finset.sum_add_distrib]
  refine Finset.sum_congr rfl fun j _ => ?_
  rw [← mul_add, ← Finset.sum_add_distrib]
  congr 1
  refine Finset.sum_congr rfl fun i' _ => ?_
  rw [← Finset.sum_add_distrib]
  exact Finset.sum_congr rfl fun j' _ => by ring

theorem KBlock.quad_diag (b : KBlock ℝ) (a g : ℝ) (v : Nat → ℝ) :
    { b with A := fun i j => if i = j then a else 0, B := fun i j => if i = j then g else 0 }.quad v = a * g * b.sq v := by
  unfold KBlock.quad KBlock.sq
  rw [Finset.mul_sum]
  refine Finset.sum_congr rfl fun i _ => ?_
  rw [Finset.mul_sum]
  refine Finset.sum_congr rfl fun j _ => ?_
  simp only
  rw [Finset.sum_eq_single (i : Nat), Finset.sum_eq_single (j : Nat)]
  · simp; ring
  · intro k _ hk
    simp [hk]
  · exact fun h => absurd (Finset.mem_range.mpr j.2) h
  · intro k _ hk
    simp [Ne.symm hk]
  · exact fun h => absurd (Finset.mem_range.mpr i.2) h

/-- `(B + g) ⊗ (A + a) ≽ B ⊗ A + a g`. -/
theorem KBlock.quad_damped (b : KBlock ℝ) (hA : IsGram b.cols b.A) (hB : IsGram b.rows b.B) {a g : ℝ} (ha : 0 ≤ a) (hg : 0 ≤ g)
    (v : Nat → ℝ) : b.quad v + a * g * b.sq v ≤
      { b with A := fun i j => b.A i j + if i = j then a else 0, B := fun i j => b.B i j + if i = j then g else 0 }.quad v := by
  have e1 := KBlock.quad_addB { b with A := fun i j => b.A i j + if i = j then a else 0 } (fun i j => if i = j then g else 0) v
  have e2 := KBlock.quad_addA b (fun i j => if i = j then a else 0) v
  have e3 := KBlock.quad_addA { b with B := fun i j => if i = j then g else 0 } (fun i j => if i = j then a else 0) v
  have e4 := KBlock.quad_diag b a g v
  have p1 : 0 ≤ { b with A := fun i j => if i = j then a else 0 }.quad v :=
    block_quad_nonneg { b with A := fun i j => if i = j then a else 0 } (isGram_diag _ ha) hB v
  have p2 : 0 ≤ { b with B := fun i j => if i = j then g else 0 }.quad v :=
    block_quad_nonneg { b with B := fun i j => if i = j then g else 0 } hA (isGram_diag _ hg) v
  simp only at e1 e2 e3
  rw [e1, e2, e3, e4]
  linarith

/-- `(B + g) ⊗ 1 = B ⊗ 1 + g` for a bias. -/
theorem Layer.quad_bias (shapes : List (List Nat)) (l : Layer ℝ) (b : Nat) (a g : ℝ) (v : Nat → ℝ) :
    ((l.damped a g).bBlock shapes b).quad v = (l.bBlock shapes b).quad v + g * (l.bBlock shapes b).sq v := by
  have e1 := KBlock.quad_addB (l.bBlock shapes b) (fun i j => if i = j then g else 0) v
  have e2 := KBlock.quad_diag (l.bBlock shapes b) 1 g v
  rw [one_mul] at e2
  refine e1.trans ?_
  rw [← e2]
  refine congrArg ((l.bBlock shapes b).quad v + ·) ?_
  unfold KBlock.quad
  refine Finset.sum_congr rfl fun i _ => Finset.sum_congr rfl fun j _ => ?_
  congr 1
  refine Finset.sum_congr rfl fun i' _ => Finset.sum_congr rfl fun j' hj' => ?_
  have h1 : j' = 0 := Nat.lt_one_iff.mp (Finset.mem_range.mp hj')
  have h2 : (j : Nat) = 0 := Nat.lt_one_iff.mp j.2
  dsimp only
  rw [if_pos (h1.trans h2.symm)]
  rfl

/-! ## Layers -/

/-- The factors of the layer are covariances, and fit to the parameters. -/
structure Layer.GramFits (sep : Bool) (shapes : List (List Nat)) (l : Layer ℝ) : Prop where
  A : l.pos.hasWeight = true → IsGram l.A.dim l.A.mat
  B : IsGram l.B.dim l.B.mat
  fits : l.Fits sep shapes

theorem Layer.GramFits.damped {sep : Bool} {shapes : List (List Nat)} {l : Layer ℝ} (h : l.GramFits sep shapes) {a g : ℝ}
    (ha : 0 ≤ a) (hg : 0 ≤ g) : (l.damped a g).GramFits sep shapes :=
  ⟨fun hw => (h.A hw).add (isGram_diag _ ha), h.B.add (isGram_diag _ hg), by
    have := h.fits
    obtain ⟨n, pos, A, B⟩ := l
    cases pos <;> exact this⟩

theorem layers_gramFits {sep : Bool} {shapes : List (List Nat)} {mapping : Dict (Dict Nat)} {inCov gradCov : Dict (Factor ℝ)}
    {layers : List (Layer ℝ)} (h : KfacLayers sep shapes mapping inCov gradCov layers) (hi : DictGram inCov)
    (hg : DictGram gradCov) : ∀ l ∈ layers, l.GramFits sep shapes :=
  fun l hl => ⟨fun hw => hi _ _ (h.inCov_get l hl hw), hg _ _ (h.gradCov_get l hl), h.fits l hl⟩

theorem Layer.damped_damped (l : Layer ℝ) (a g a' g' : ℝ) : (l.damped a g).damped a' g' = l.damped (a + a') (g + g') := by
  have key : ∀ (M : Factor ℝ) (x y : ℝ), (M.addDiag x).addDiag y = M.addDiag (x + y) := by
    intro M x y
    refine congrArg (Factor.mk M.dim) ?_
    funext i j
    simp only [Factor.addDiag]
    split <;> ring
  unfold Layer.damped
  simp only [key]

theorem Layer.quad_damped {sep : Bool} {shapes : List (List Nat)} {l : Layer ℝ} (h : l.GramFits sep shapes) {a g c : ℝ}
    (ha : 0 ≤ a) (hg : 0 ≤ g) (hw : l.pos.hasWeight = true → c ≤ a * g) (hb : l.pos.ownBias sep = true → c ≤ g) (v : Nat → ℝ) :
    ((l.blocks sep shapes).map fun b => b.quad v).sum + c * ((l.blocks sep shapes).map fun b => b.sq v).sum ≤
      (((l.damped a g).blocks sep shapes).map fun b => b.quad v).sum := by
  obtain ⟨hA, hB, hfit⟩ := h
  have hbias : ∀ p, l.pos.ownBias sep = true → (l.bBlock shapes p).quad v + c * (l.bBlock shapes p).sq v ≤
      ((l.damped a g).bBlock shapes p).quad v := by
    intro p ho
    rw [Layer.quad_bias]
    have := mul_le_mul_of_nonneg_right (hb ho) ((l.bBlock shapes p).sq_nonneg v)
    linarith
  have hweight : ∀ p, l.A.dim = wCols shapes p → l.pos.hasWeight = true →
      (l.wBlock shapes p).quad v + c * (l.wBlock shapes p).sq v ≤ ((l.damped a g).wBlock shapes p).quad v := by
    intro p hd ho
    have hA' := hA ho
    rw [hd] at hA'
    refine le_trans ?_ (KBlock.quad_damped (l.wBlock shapes p) hA' hB ha hg v)
    have := mul_le_mul_of_nonneg_right (hw ho) ((l.wBlock shapes p).sq_nonneg v)
    linarith
  have hjoint : ∀ p q, l.A.dim = wCols shapes p + 1 → l.pos.hasWeight = true →
      (l.jBlock shapes p q).quad v + c * (l.jBlock shapes p q).sq v ≤ ((l.damped a g).jBlock shapes p q).quad v := by
    intro p q hd ho
    have hA' := hA ho
    rw [hd] at hA'
    refine le_trans ?_ (KBlock.quad_damped (l.jBlock shapes p q) hA' hB ha hg v)
    have := mul_le_mul_of_nonneg_right (hw ho) ((l.jBlock shapes p q).sq_nonneg v)
    linarith
  have hpos : (l.damped a g).pos = l.pos := rfl
  unfold Layer.Fits at hfit
  unfold Layer.blocks
  rw [hpos]
  cases hp : l.pos with
  | both w b =>
    simp only [hp, LayerPos.hasWeight, LayerPos.ownBias, forall_const] at hfit hweight hjoint hbias
    cases sep with
    | true =>
      simp only [if_true, add_zero] at hfit
      have h1 := hweight w hfit.2.2
      have h2 := hbias b rfl
      simp only [if_true, List.map_cons, List.map_nil, List.sum_cons, List.sum_nil, add_zero]
      linarith
    | false =>
      simp only [Bool.false_eq_true, if_false] at hfit
      simpa using hjoint w b hfit.2.2
  | weight w =>
    simp only [hp, LayerPos.hasWeight, forall_const] at hfit hweight
    simpa using hweight w hfit.2
  | bias b =>
    simp only [hp, LayerPos.ownBias, forall_const] at hbias
    simpa using hbias b

theorem blocks_quad_damped {sep : Bool} {shapes : List (List Nat)} {layers : List (Layer ℝ)}
    (h : ∀ l ∈ layers, l.GramFits sep shapes) {a g : Layer ℝ → ℝ} {c : ℝ} (ha : ∀ l ∈ layers, 0 ≤ a l) (hg : ∀ l ∈ layers, 0 ≤ g l)
    (hw : ∀ l ∈ layers, l.pos.hasWeight = true → c ≤ a l * g l) (hb : ∀ l ∈ layers, l.pos.ownBias sep = true → c ≤ g l)
    (v : Nat → ℝ) :
    ((kfacBlocks sep shapes layers).map fun b => b.quad v).sum + c * ((kfacBlocks sep shapes layers).map fun b => b.sq v).sum ≤
      ((kfacBlocks sep shapes (layers.map fun l => l.damped (a l) (g l))).map fun b => b.quad v).sum := by
  unfold kfacBlocks
  induction layers with
  | nil => simp
  | cons l ls ih =>
    have h1 := Layer.quad_damped (h l (by simp)) (ha l (by simp)) (hg l (by simp)) (hw l (by simp)) (hb l (by simp)) v
    have h2 := ih (fun m hm => h m (by simp [hm])) (fun m hm => ha m (by simp [hm])) (fun m hm => hg m (by simp [hm]))
      (fun m hm => hw m (by simp [hm])) (fun m hm => hb m (by simp [hm]))
    simp only [List.flatMap_cons, List.map_cons, List.map_append, List.sum_append]
    linarith

theorem blocks_quad_mono {sep : Bool} {shapes : List (List Nat)} {layers : List (Layer ℝ)}
    (h : ∀ l ∈ layers, l.GramFits sep shapes) {a g a' g' : Layer ℝ → ℝ} (ha : ∀ l ∈ layers, 0 ≤ a l) (hg : ∀ l ∈ layers, 0 ≤ g l)
    (haa : ∀ l ∈ layers, a l ≤ a' l) (hgg : ∀ l ∈ layers, g l ≤ g' l) (v : Nat → ℝ) :
    ((kfacBlocks sep shapes (layers.map fun l => l.damped (a l) (g l))).map fun b => b.quad v).sum ≤
      ((kfacBlocks sep shapes (layers.map fun l => l.damped (a' l) (g' l))).map fun b => b.quad v).sum := by
  unfold kfacBlocks
  induction layers with
  | nil => simp
  | cons l ls ih =>
    have h1 := Layer.quad_damped (a := a' l - a l) (g := g' l - g l) (c := 0)
      ((h l (by simp)).damped (ha l (by simp)) (hg l (by simp))) (sub_nonneg.mpr (haa l (by simp)))
      (sub_nonneg.mpr (hgg l (by simp)))
      (fun _ => mul_nonneg (sub_nonneg.mpr (haa l (by simp))) (sub_nonneg.mpr (hgg l (by simp))))
      (fun _ => sub_nonneg.mpr (hgg l (by simp))) v
    rw [Layer.damped_damped, add_sub_cancel, add_sub_cancel] at h1
    have h2 := ih (fun m hm => h m (by simp [hm])) (fun m hm => ha m (by simp [hm])) (fun m hm => hg m (by simp [hm]))
      (fun m hm => haa m (by simp [hm])) (fun m hm => hgg m (by simp [hm]))
    simp only [List.map_cons, List.flatMap_cons, List.map_append, List.sum_append]
    linarith

/-! ## The inverses -/

theorem quad_add_diag (N : Nat) (M : Mat ℝ) (δ : ℝ) (v : Nat → ℝ) :
    ∑ r ∈ Finset.range N, v r * ∑ k ∈ Finset.range N, (M r k + if r = k then δ else 0) * v k =
      ∑ r ∈ Finset.range N, v r * ∑ k ∈ Finset.range N, M r k * v k + δ * ∑ r ∈ Finset.range N, v r * v r := by
  rw [Finset.mul_sum, ← Finset.sum_add_distrib]
  refine Finset.sum_congr rfl fun r hr => ?_
  have : ∑ k ∈ Finset.range N, (M r k + if r = k then δ else 0) * v k = ∑ k ∈ Finset.range N, M r k * v k + δ * v r := by
    simp only [add_mul, Finset.sum_add_distrib]
    congr 1
    rw [Finset.sum_eq_single r]
    · simp
    · intro k _ hk
      simp [Ne.symm hk]
    · exact fun h => absurd hr h
  rw [this]
  ring

theorem quad_assoc (N : Nat) (M : Mat ℝ) (v : Nat → ℝ) :
    ∑ r ∈ Finset.range N, v r * ∑ k ∈ Finset.range N, M r k * v k =
      ∑ r ∈ Finset.range N, ∑ k ∈ Finset.range N, v r * M r k * v k :=
  Finset.sum_congr rfl fun r _ => by
    rw [Finset.mul_sum]
    exact Finset.sum_congr rfl fun k _ => by ring

/-- The inverses that two configurations (`icfg`, `icfg'`) of `KFACInverseLinearOperator` give for the same KFAC operator:
that with `icfg` is the smaller one. -/
def InverseLe (w : KWorld Θ B G) (la : LinAlg) (dt : FloatType) (shapes : List (List Nat)) (s₀ : KState Θ) (icfg icfg' : InvCfg) :
    Prop :=
  ∃ E E', Represents (KInvState.op w la dt shapes ⟨s₀, icfg, []⟩) E ∧ Represents (KInvState.op w la dt shapes ⟨s₀, icfg', []⟩) E' ∧
    LoewnerLe (shapes.map List.prod).sum E E'

/-- C115, more damping of the factors (of whatever origin): the inverse gets smaller. -/
theorem kfacInverse_monotone (w : KWorld Θ B G) (s₀ : KState Θ) (hf : s₀.IsFresh) (hg : w.Good s₀.cfg) (la : LinAlg)
    (hla : la.Correct) (dt : FloatType) (shapes : List (List Nat)) (layers : List (Layer ℝ))
    (hK : KfacLayers s₀.cfg.sep shapes w.mapping (w.factors s₀).1 (w.factors s₀).2 layers) (cfg cfg' : InvCfg)
    (hex : cfg.exact = false) (hex' : cfg'.exact = false) (a b a' b' : Layer ℝ → ℝ)
    (hd : ∀ l ∈ layers, computeDamping cfg ((w.factors s₀).1.get l.name) ((w.factors s₀).2.get l.name) =
      .ok (.fin (a l), .fin (b l)))
    (hd' : ∀ l ∈ layers, computeDamping cfg' ((w.factors s₀).1.get l.name) ((w.factors s₀).2.get l.name) =
      .ok (.fin (a' l), .fin (b' l)))
    (ha : ∀ l ∈ layers, 0 < a l) (hb : ∀ l ∈ layers, 0 < b l) (haa : ∀ l ∈ layers, a l ≤ a' l) (hbb : ∀ l ∈ layers, b l ≤ b' l) :
    InverseLe w la dt shapes s₀ cfg' cfg := by
  have hgram := kfacFactors_gram s₀.cfg w.layers (w.batches s₀.model s₀.cfg (w.seeded s₀.seed) w.data)
  have hfit := layers_gramFits hK hgram.1 hgram.2
  have ht := damped_tiles hK a b
  have ht' := damped_tiles hK a' b'
  obtain ⟨E, hE, hI⟩ := kfacInverse_fresh_damped w s₀ hf hg la hla dt shapes layers hK cfg hex a b hd ha hb _
    (scatter_isKron _ _ ht)
  obtain ⟨E', hE', hI'⟩ := kfacInverse_fresh_damped w s₀ hf hg la hla dt shapes layers hK cfg' hex' a' b' hd'
    (fun l hl => (ha l hl).trans_le (haa l hl)) (fun l hl => (hb l hl).trans_le (hbb l hl)) _ (scatter_isKron _ _ ht')
  have hblk := damped_blocks_ge hK hgram.1 hgram.2 a b (fun l hl => (ha l hl).le) (fun l hl => (hb l hl).le) 0
    (fun l hl _ => mul_nonneg (ha l hl).le (hb l hl).le) (fun l hl _ => (hb l hl).le)
  obtain ⟨hs, hq⟩ := kron_psd _ _ ht _ (scatter_isKron _ _ ht) fun k hk => by
    obtain ⟨x, y, hx, hy, -, hA, hB⟩ := hblk k hk
    exact ⟨isGram_of_sub hx hA, isGram_of_sub hy hB⟩
  refine ⟨E', E, hE', hE, matInv_antitone _ _ _ E E' hs (fun v => by rw [quad_assoc]; exact hq v) (fun v => ?_) hI hI'⟩
  rw [kron_quad _ _ ht _ (scatter_isKron _ _ ht), kron_quad _ _ ht' _ (scatter_isKron _ _ ht')]
  exact blocks_quad_mono hfit (fun l hl => (ha l hl).le) (fun l hl => (hb l hl).le) haa hbb v

/-- C115, damped factors and exact damping: if `δ` is at most the products of the two dampings (and the damping of the
gradient covariance, for blocks of biases), then the inverse with damped factors is at most that with exact damping `δ`. -/
theorem kfacInverse_factors_le_exact (w : KWorld Θ B G) (s₀ : KState Θ) (hf : s₀.IsFresh) (hg : w.Good s₀.cfg) (la : LinAlg)
    (hla : la.Correct) (dt : FloatType) (shapes : List (List Nat)) (layers : List (Layer ℝ))
    (hK : KfacLayers s₀.cfg.sep shapes w.mapping (w.factors s₀).1 (w.factors s₀).2 layers) (cfg cfg' : InvCfg)
    (hex : cfg.exact = false) (a b : Layer ℝ → ℝ)
    (hd : ∀ l ∈ layers, computeDamping cfg ((w.factors s₀).1.get l.name) ((w.factors s₀).2.get l.name) =
      .ok (.fin (a l), .fin (b l)))
    (ha : ∀ l ∈ layers, 0 < a l) (hb : ∀ l ∈ layers, 0 < b l) (hex' : cfg'.exact = true) (δ : ℝ) (hδ : cfg'.damping = .value δ)
    (hpos : 0 < δ) (hw : ∀ l ∈ layers, l.pos.hasWeight = true → δ ≤ a l * b l)
    (hbias : ∀ l ∈ layers, l.pos.ownBias s₀.cfg.sep = true → δ ≤ b l) :
    InverseLe w la dt shapes s₀ cfg cfg' := by
  have hgram := kfacFactors_gram s₀.cfg w.layers (w.batches s₀.model s₀.cfg (w.seeded s₀.seed) w.data)
  have hfit := layers_gramFits hK hgram.1 hgram.2
  have ht := damped_tiles hK a b
  have ht' := kfac_tiles _ _ _ _ _ _ hK
  obtain ⟨M, hM⟩ := (kfac_matrix_exists _ _ _ _ _ _ hK).1
  obtain ⟨E, hE, hI⟩ := kfacInverse_fresh_damped w s₀ hf hg la hla dt shapes layers hK cfg hex a b hd ha hb _
    (scatter_isKron _ _ ht)
  obtain ⟨E', hE', hI'⟩ := kfacInverse_fresh_exact w s₀ hf hg la hla dt shapes layers hK cfg' hex' δ hδ hpos M hM
  obtain ⟨hs, hq⟩ := kron_psd _ _ ht' M hM (kfacBlocks_gram hK hgram.1 hgram.2)
  refine ⟨E, E', hE, hE', matInv_antitone _ _ _ E' E (fun r hr k hk => ?_) (fun v => ?_) (fun v => ?_) hI' hI⟩
  · simp only [hs r hr k hk, eq_comm]
  · rw [quad_add_diag, quad_assoc]
    exact add_nonneg (hq v) (mul_nonneg hpos.le (Finset.sum_nonneg fun _ _ => mul_self_nonneg _))
  · rw [quad_add_diag, kron_quad _ _ ht' M hM, kron_quad _ _ ht _ (scatter_isKron _ _ ht), tiles_sq _ _ ht']
    exact blocks_quad_damped hfit (fun l hl => (ha l hl).le) (fun l hl => (hb l hl).le) hw hbias v

/-- C115, exact damping: more damping gives a smaller inverse. -/
theorem kfacInverse_exact_monotone (w : KWorld Θ B G) (s₀ : KState Θ) (hf : s₀.IsFresh) (hg : w.Good s₀.cfg) (la : LinAlg)
    (hla : la.Correct) (dt : FloatType) (shapes : List (List Nat)) (layers : List (Layer ℝ))
    (hK : KfacLayers s₀.cfg.sep shapes w.mapping (w.factors s₀).1 (w.factors s₀).2 layers) (cfg cfg' : InvCfg)
    (hex : cfg.exact = true) (hex' : cfg'.exact = true) (δ δ' : ℝ) (hδ : cfg.damping = .value δ) (hδ' : cfg'.damping = .value δ')
    (hpos : 0 < δ) (hle : δ ≤ δ') : InverseLe w la dt shapes s₀ cfg' cfg := by
  obtain ⟨M, hM⟩ := (kfac_matrix_exists _ _ _ _ _ _ hK).1
  obtain ⟨E, hE, hI⟩ := kfacInverse_fresh_exact w s₀ hf hg la hla dt shapes layers hK cfg hex δ hδ hpos M hM
  obtain ⟨E', hE', hI'⟩ := kfacInverse_fresh_exact w s₀ hf hg la hla dt shapes layers hK cfg' hex' δ' hδ' (hpos.trans_le hle) M hM
  have hgram := kfacFactors_gram s₀.cfg w.layers (w.batches s₀.model s₀.cfg (w.seeded s₀.seed) w.data)
  obtain ⟨hs, hq⟩ := kron_psd _ _ (kfac_tiles _ _ _ _ _ _ hK) M hM (kfacBlocks_gram hK hgram.1 hgram.2)
  have hn : ∀ v : Nat → ℝ, 0 ≤ ∑ r ∈ Finset.range (shapes.map List.prod).sum, v r * v r :=
    fun v => Finset.sum_nonneg fun _ _ => mul_self_nonneg _
  refine ⟨E', E, hE', hE, matInv_antitone _ _ _ E E' (fun r hr k hk => ?_) (fun v => ?_) (fun v => ?_) hI hI'⟩
  · simp only [hs r hr k hk, eq_comm]
  · rw [quad_add_diag, quad_assoc]
    exact add_nonneg (hq v) (mul_nonneg hpos.le (hn v))
  · rw [quad_add_diag, quad_add_diag]
    have := mul_le_mul_of_nonneg_right hle (hn v)
    linarith

/-- C115 for one number `δ`: damping both factors with `δ` gives at most exact damping with `δ²`, if biases are joint with
weights (or `δ ≤ 1`). -/
theorem kfacInverse_value_le_exact (w : KWorld Θ B G) (s₀ : KState Θ) (hf : s₀.IsFresh) (hg : w.Good s₀.cfg) (la : LinAlg)
    (hla : la.Correct) (dt : FloatType) (shapes : List (List Nat)) (layers : List (Layer ℝ))
    (hK : KfacLayers s₀.cfg.sep shapes w.mapping (w.factors s₀).1 (w.factors s₀).2 layers) (cfg cfg' : InvCfg)
    (hex : cfg.exact = false) (hh : cfg.heuristic = false) (δ : ℝ) (hδ : cfg.damping = .value δ) (hpos : 0 < δ)
    (hex' : cfg'.exact = true) (hδ' : cfg'.damping = .value (δ ^ 2))
    (hbias : δ ≤ 1 ∨ ∀ l ∈ layers, l.pos.ownBias s₀.cfg.sep = false) :
    InverseLe w la dt shapes s₀ cfg cfg' := by
  refine kfacInverse_factors_le_exact w s₀ hf hg la hla dt shapes layers hK cfg cfg' hex (fun _ => δ) (fun _ => δ)
    (fun _ _ => (plainDamping cfg hh _ _).1 _ hδ) (fun _ _ => hpos) (fun _ _ => hpos) hex' (δ ^ 2) hδ' (by positivity)
    (fun _ _ _ => by linarith) fun l hl ho => ?_
  rcases hbias with h | h
  · nlinarith
  · rw [h l hl] at ho
    cases ho

/-- The dampings that the heuristic gives. -/
theorem heuristic_dampings (w : KWorld Θ B G) (s₀ : KState Θ) (shapes : List (List Nat)) (layers : List (Layer ℝ))
    (hK : KfacLayers s₀.cfg.sep shapes w.mapping (w.factors s₀).1 (w.factors s₀).2 layers) (cfg : InvCfg)
    (hh : cfg.heuristic = true) (δ : ℝ) (hδ : cfg.damping = .value δ) (hpos : 0 < δ)
    (hw : ∀ l ∈ layers, l.pos.hasWeight = true) (hne : ∀ l ∈ layers, 0 < l.A.eigMean ∧ 0 < l.B.eigMean) (l : Layer ℝ)
    (hl : l ∈ layers) :
    computeDamping cfg ((w.factors s₀).1.get l.name) ((w.factors s₀).2.get l.name) =
      .ok (.fin (max (Real.sqrt (δ * (l.A.eigMean / l.B.eigMean))) cfg.minDamping),
        .fin (max (Real.sqrt (δ * (l.B.eigMean / l.A.eigMean))) cfg.minDamping)) := by
  obtain ⟨a, b, h1, ha, hb, -⟩ := heuristicDamping_partial cfg δ hh hδ hpos.le l.A l.B (hne l hl).1 (hne l hl).2
  rw [hK.inCov_get l hl (hw l hl), hK.gradCov_get l hl, h1, ha, hb]

/-- C115, the heuristic: damping with `δ` and the heuristic gives at most exact damping with `δ`, if biases are joint with
weights, whatever `min_damping` is. -/
theorem kfacInverse_heuristic_le_exact (w : KWorld Θ B G) (s₀ : KState Θ) (hf : s₀.IsFresh) (hg : w.Good s₀.cfg) (la : LinAlg)
    (hla : la.Correct) (dt : FloatType) (shapes : List (List Nat)) (layers : List (Layer ℝ))
    (hK : KfacLayers s₀.cfg.sep shapes w.mapping (w.factors s₀).1 (w.factors s₀).2 layers) (cfg cfg' : InvCfg)
    (hex : cfg.exact = false) (hh : cfg.heuristic = true) (δ : ℝ) (hδ : cfg.damping = .value δ) (hpos : 0 < δ)
    (hex' : cfg'.exact = true) (hδ' : cfg'.damping = .value δ)
    (hl : ∀ l ∈ layers, l.pos.hasWeight = true ∧ l.pos.ownBias s₀.cfg.sep = false)
    (hne : ∀ l ∈ layers, 0 < l.A.eigMean ∧ 0 < l.B.eigMean) :
    InverseLe w la dt shapes s₀ cfg cfg' := by
  have hpa : ∀ l ∈ layers, 0 < Real.sqrt (δ * (l.A.eigMean / l.B.eigMean)) := fun l h => by
    have := hne l h
    exact Real.sqrt_pos.mpr (mul_pos hpos (div_pos this.1 this.2))
  have hpb : ∀ l ∈ layers, 0 < Real.sqrt (δ * (l.B.eigMean / l.A.eigMean)) := fun l h => by
    have := hne l h
    exact Real.sqrt_pos.mpr (mul_pos hpos (div_pos this.2 this.1))
  refine kfacInverse_factors_le_exact w s₀ hf hg la hla dt shapes layers hK cfg cfg' hex _ _
    (heuristic_dampings w s₀ shapes layers hK cfg hh δ hδ hpos (fun l h => (hl l h).1) hne)
    (fun l h => lt_max_of_lt_left (hpa l h)) (fun l h => lt_max_of_lt_left (hpb l h)) hex' δ hδ' hpos (fun l h _ => ?_)
    fun l h ho => by rw [(hl l h).2] at ho; cases ho
  refine le_trans (le_of_eq ?_) (mul_le_mul (le_max_left _ _) (le_max_left _ _) (hpb l h).le ((hpa l h).le.trans (le_max_left _ _)))
  have h1 := (hne l h).1
  have h2 := (hne l h).2
  rw [← Real.sqrt_mul (by positivity)]
  have : δ * (l.A.eigMean / l.B.eigMean) * (δ * (l.B.eigMean / l.A.eigMean)) = δ ^ 2 := by field_simp
  rw [this, Real.sqrt_sq hpos.le]

/-- C115, the heuristic: a larger damping and a larger `min_damping` give a smaller inverse. -/
theorem kfacInverse_heuristic_monotone (w : KWorld Θ B G) (s₀ : KState Θ) (hf : s₀.IsFresh) (hg : w.Good s₀.cfg) (la : LinAlg)
    (hla : la.Correct) (dt : FloatType) (shapes : List (List Nat)) (layers : List (Layer ℝ))
    (hK : KfacLayers s₀.cfg.sep shapes w.mapping (w.factors s₀).1 (w.factors s₀).2 layers) (cfg cfg' : InvCfg)
    (hex : cfg.exact = false) (hex' : cfg'.exact = false) (hh : cfg.heuristic = true) (hh' : cfg'.heuristic = true) (δ δ' : ℝ)
    (hδ : cfg.damping = .value δ) (hδ' : cfg'.damping = .value δ') (hpos : 0 < δ) (hle : δ ≤ δ')
    (hmin : cfg.minDamping ≤ cfg'.minDamping) (hw : ∀ l ∈ layers, l.pos.hasWeight = true)
    (hne : ∀ l ∈ layers, 0 < l.A.eigMean ∧ 0 < l.B.eigMean) :
    InverseLe w la dt shapes s₀ cfg' cfg := by
  refine kfacInverse_monotone w s₀ hf hg la hla dt shapes layers hK cfg cfg' hex hex' _ _ _ _
    (heuristic_dampings w s₀ shapes layers hK cfg hh δ hδ hpos hw hne)
    (heuristic_dampings w s₀ shapes layers hK cfg' hh' δ' hδ' (hpos.trans_le hle) hw hne) ?_ ?_ ?_ ?_ <;> intro l hl <;>
    obtain ⟨h1, h2⟩ := hne l hl
  · exact lt_max_of_lt_left (Real.sqrt_pos.mpr (by positivity))
  · exact lt_max_of_lt_left (Real.sqrt_pos.mpr (by positivity))
  · exact max_le_max (Real.sqrt_le_sqrt (mul_le_mul_of_nonneg_right hle (by positivity))) hmin
  · exact max_le_max (Real.sqrt_le_sqrt (mul_le_mul_of_nonneg_right hle (by positivity))) hmin

/-! ## Separately treated biases -/

/-- One linear layer with one weight and a bias, two mini-batches of one datum. -/
def affineWorld : KWorld Unit (List KDatum) Unit :=
  ⟨[⟨"lin", [("weight", 0), ("bias", 1)], 1, 1, 1⟩], [[unitDatum], [unitDatum]], fun _ => (), fun _ _ g b => (b, g)⟩

theorem affineWorld_good : affineWorld.Good stateCfg :=
  ⟨by simp [affineWorld], by simp [affineWorld], by simp [affineWorld], by simp [stateCfg], by simp [stateCfg], by simp [stateCfg]⟩

/-- Its only layer; the bias is treated separately (`unitState`). -/
noncomputable def affineLayer : Layer ℝ := ⟨"lin", .both 0 1, ⟨1, fun _ _ => 1⟩, ⟨1, fun _ _ => 2⟩⟩

theorem affine_factors : affineWorld.factors unitState =
    ([("lin", ⟨1, fun _ _ => 1⟩)], [("lin", ⟨1, fun _ _ => 2⟩)]) := by
  have h1 : inputCovariance stateCfg ⟨"lin", [("weight", 0), ("bias", 1)], 1, 1, 1⟩ [unitDatum] = ⟨1, fun _ _ => 1 / 2⟩ := by
    refine congrArg (Factor.mk 1) ?_
    funext i j
    simp [gram, inputRows, stateCfg, KLayer.joint, Dict.has, unitDatum]
  have h2 : gradCovariance stateCfg ⟨"lin", [("weight", 0), ("bias", 1)], 1, 1, 1⟩ [unitDatum] 0 = ⟨1, fun _ _ => 1⟩ := by
    refine congrArg (Factor.mk 1) ?_
    funext i j
    simp [gram, gradRows, stateCfg, outputGrad, cotangent, correction, unitDatum]
  have h3 : affineWorld.factors unitState = ([KEvent.input "lin" (inputCovariance stateCfg ⟨"lin", [("weight", 0), ("bias", 1)], 1, 1, 1⟩
      [unitDatum]), .grad "lin" (gradCovariance stateCfg ⟨"lin", [("weight", 0), ("bias", 1)], 1, 1, 1⟩ [unitDatum] 0),
      KEvent.input "lin" (inputCovariance stateCfg ⟨"lin", [("weight", 0), ("bias", 1)], 1, 1, 1⟩
      [unitDatum]), .grad "lin" (gradCovariance stateCfg ⟨"lin", [("weight", 0), ("bias", 1)], 1, 1, 1⟩ [unitDatum] 0)]).foldl
      applyEvent ([], []) := rfl
  rw [h3, h1, h2]
  simp [applyEvent, addCov, Dict.get, Dict.set, List.lookup]
  constructor <;> funext i j <;> norm_num

theorem affine_layers : KfacLayers unitState.cfg.sep [[1, 1], [1]] affineWorld.mapping (affineWorld.factors unitState).1
    (affineWorld.factors unitState).2 [affineLayer] := by
  rw [affine_factors]
  refine ⟨rfl, by simp [affineLayer, LayerPos.positions, List.range_succ], ?_, ?_, ?_⟩
  · intro l hl _
    rw [List.mem_singleton.mp hl]
    rfl
  · intro l hl
    rw [List.mem_singleton.mp hl]
    rfl
  · intro l hl
    rw [List.mem_singleton.mp hl]
    exact ⟨rfl, rfl, rfl⟩

/-- The matrix of a layer with one weight and a separately treated bias. -/
theorem affine_isKron (fA fB : Mat ℝ) : IsKron (kfacBlocks true [[1, 1], [1]] [⟨"lin", .both 0 1, ⟨1, fA⟩, ⟨1, fB⟩⟩])
    fun r k => if r = k then (if r = 0 then fB 0 0 * fA 0 0 else fB 0 0) else 0 := by
  rintro ⟨⟨i, hi⟩, a, b⟩ ⟨⟨j, hj⟩, c, d⟩
  have hi' : i < 2 := hi
  have hj' : j < 2 := hj
  rcases (by omega : i = 0 ∨ i = 1) with rfl | rfl <;> rcases (by omega : j = 0 ∨ j = 1) with rfl | rfl
  all_goals
    have ha : (a : Nat) = 0 := Nat.lt_one_iff.mp a.2
    have hb : (b : Nat) = 0 := Nat.lt_one_iff.mp b.2
    have hc : (c : Nat) = 0 := Nat.lt_one_iff.mp c.2
    have hd : (d : Nat) = 0 := Nat.lt_one_iff.mp d.2
    simp [KIdx.entry, KIdx.pos, kfacBlocks, Layer.blocks, Layer.wBlock, Layer.bBlock, ha, hb, hc, hd, offset]

/-- C115 has an exception: for a separately treated bias the heuristic can damp less than exact damping does. With `δ = 8` the
heuristic adds `√(8 · 2) = 4` to the gradient covariance `2`, and the entry of the inverse for the bias is 1/6; with exact
damping it is 1/10. -/
theorem kfacInverse_heuristic_bias (la : LinAlg) (hla : la.Correct) (dt : FloatType) (c c' : Bool) :
    ¬ InverseLe affineWorld la dt [[1, 1], [1]] unitState ⟨.value 8, true, 0, false, c, true⟩ ⟨.value 8, false, 0, true, c', true⟩ := by
  rintro ⟨E, E', hE, hE', hle⟩
  have hne : ∀ l ∈ [affineLayer], 0 < l.A.eigMean ∧ 0 < l.B.eigMean := by
    intro l hl
    rw [List.mem_singleton.mp hl]
    constructor <;> simp [Factor.eigMean, affineLayer]
  have hd := heuristic_dampings affineWorld unitState [[1, 1], [1]] [affineLayer] affine_layers ⟨.value 8, true, 0, false, c, true⟩
    rfl 8 rfl (by norm_num) (fun l hl => by rw [List.mem_singleton.mp hl]; rfl) hne
  have hA : affineLayer.A.eigMean = 1 := by simp [Factor.eigMean, affineLayer]
  have hB : affineLayer.B.eigMean = 2 := by simp [Factor.eigMean, affineLayer]
  have s4 : Real.sqrt 4 = 2 := by rw [show (4 : ℝ) = 2 ^ 2 by norm_num]; exact Real.sqrt_sq (by norm_num)
  have s16 : Real.sqrt 16 = 4 := by rw [show (16 : ℝ) = 4 ^ 2 by norm_num]; exact Real.sqrt_sq (by norm_num)
  have hd' : ∀ l ∈ [affineLayer], computeDamping ⟨.value 8, true, 0, false, c, true⟩ ((affineWorld.factors unitState).1.get l.name)
      ((affineWorld.factors unitState).2.get l.name) = .ok (.fin 2, .fin 4) := by
    intro l hl
    rw [hd l hl, List.mem_singleton.mp hl, hA, hB]
    norm_num [s4, s16]
  have hk1 : IsKron (kfacBlocks unitState.cfg.sep [[1, 1], [1]] ([affineLayer].map fun l => l.damped 2 4))
      fun r k => if r = k then (if r = 0 then 18 else 6) else 0 := by
    have := affine_isKron (fun i j => 1 + if i = j then 2 else 0) (fun i j => 2 + if i = j then 4 else 0)
    norm_num at this
    exact this
  obtain ⟨E₁, h1, hI1⟩ := kfacInverse_fresh_damped affineWorld unitState unitState_fresh affineWorld_good la hla dt [[1, 1], [1]]
    [affineLayer] affine_layers ⟨.value 8, true, 0, false, c, true⟩ rfl (fun _ => 2) (fun _ => 4) hd' (fun _ _ => by norm_num)
    (fun _ _ => by norm_num) _ hk1
  obtain ⟨E₂, h2, hI2⟩ := kfacInverse_fresh_exact affineWorld unitState unitState_fresh affineWorld_good la hla dt [[1, 1], [1]]
    [affineLayer] affine_layers ⟨.value 8, false, 0, true, c', true⟩ rfl 8 rfl (by norm_num) _ (affine_isKron (fun _ _ => 1) fun _ _ => 2)
  have u1 := represents_unique _ E E₁ hE h1 1 1 Nat.one_lt_two Nat.one_lt_two
  have u2 := represents_unique _ E' E₂ hE' h2 1 1 Nat.one_lt_two Nat.one_lt_two
  have v1 := (hI1 1 (by simp) 1 (by simp)).1
  have v2 := (hI2 1 (by simp) 1 (by simp)).1
  have := hle.diag 1 (by simp)
  simp [Finset.sum_range_succ] at v1 v2
  rw [u1, u2] at this
  linarith

/-- The hypotheses are satisfiable: in the unit example (factors 1 and 2) the heuristic with damping 8 gives 1/18, exact damping
1/10. -/
example (la : LinAlg) (hla : la.Correct) : InverseLe unitWorld la .lower [[1, 1]] unitState
    ⟨.value 8, true, 1 / 100, false, true, true⟩ ⟨.value 8, false, 0, true, true, true⟩ := by
  refine kfacInverse_heuristic_le_exact unitWorld unitState unitState_fresh unitWorld_good la hla .lower [[1, 1]] [unitLayer]
    unit_layers _ _ rfl rfl 8 rfl (by norm_num) rfl rfl ?_ ?_ <;> intro l hl <;> rw [List.mem_singleton.mp hl]
  · exact ⟨rfl, rfl⟩
  · constructor <;> simp [Factor.eigMean, unitLayer]

/-- Both factors damped with 1/2, against exact damping with 1/4, also for the separately treated bias. -/
example (la : LinAlg) (hla : la.Correct) : InverseLe affineWorld la .lower [[1, 1], [1]] unitState
    ⟨.value (1 / 2), false, 0, false, true, true⟩ ⟨.value ((1 / 2) ^ 2), false, 0, true, true, true⟩ :=
  kfacInverse_value_le_exact affineWorld unitState unitState_fresh affineWorld_good la hla .lower [[1, 1], [1]] [affineLayer]
    affine_layers _ _ rfl rfl (1 / 2) rfl (by norm_num) rfl rfl (Or.inl (by norm_num))

/-- Larger damping and `min_damping` with the heuristic, also for a separately treated bias. -/
example (la : LinAlg) (hla : la.Correct) : InverseLe affineWorld la .lower [[1, 1], [1]] unitState
    ⟨.value 9, true, 1, false, true, true⟩ ⟨.value 8, true, 0, false, false, true⟩ := by
  refine kfacInverse_heuristic_monotone affineWorld unitState unitState_fresh affineWorld_good la hla .lower [[1, 1], [1]] [affineLayer]
    affine_layers _ _ rfl rfl rfl rfl 8 9 rfl rfl (by norm_num) (by norm_num) (by norm_num) ?_ ?_ <;> intro l hl <;>
    rw [List.mem_singleton.mp hl]
  · rfl
  · constructor <;> simp [Factor.eigMean, affineLayer]

end Curvlinops
