import Verif.Props.KfacProductRounding
import Verif.Props.KfacInverseBound
import Verif.Props.KfacDistance

/-!
# C133: errors of KFAC's factors and the inverse of KFAC
-/

namespace Curvlinops

/-! ## Inverses of nearby matrices -/

/-- If two matrices differ by less than what one of them is bounded from below by, then solutions of systems with them differ by a fraction. -/
theorem inverse_nearby {N : Nat} {D D' E E' : Mat ℝ} {c ε : ℝ} (hε : 0 ≤ ε) (hεc : ε < c) (hE : BoundedInverse N c E)
    (hI : MatInv N D E) (hI' : MatInv N D' E')
    (hD : ∑ p ∈ Finset.range N, ∑ q ∈ Finset.range N, (D' p q - D p q) ^ 2 ≤ ε ^ 2) (g : Nat → ℝ) :
    (c - ε) ^ 2 * ∑ p ∈ Finset.range N, (∑ q ∈ Finset.range N, E' p q * g q - ∑ q ∈ Finset.range N, E p q * g q) ^ 2 ≤
      ε ^ 2 * ∑ p ∈ Finset.range N, (∑ q ∈ Finset.range N, E p q * g q) ^ 2 := by
  set z : Nat → ℝ := fun p => ∑ q ∈ Finset.range N, E' p q * g q with hz
  set y : Nat → ℝ := fun p => ∑ q ∈ Finset.range N, E p q * g q with hy
  -- D' z = g
  have h1 : ∀ p < N, ∑ q ∈ Finset.range N, D' p q * z q = g p := by
    intro p hp
    simp only [hz, Finset.mul_sum]
    rw [Finset.sum_comm]
    calc _ = ∑ r ∈ Finset.range N, (∑ q ∈ Finset.range N, D' p q * E' q r) * g r := by
          refine Finset.sum_congr rfl fun r _ => ?_
          rw [Finset.sum_mul]
          exact Finset.sum_congr rfl fun q _ => by ring
      _ = ∑ r ∈ Finset.range N, (if p = r then 1 else 0) * g r :=
          Finset.sum_congr rfl fun r hr => by rw [(hI' p hp r (Finset.mem_range.mp hr)).1]
      _ = g p := by simp [hp]
  -- E D z = z
  have h2 : ∀ p < N, ∑ q ∈ Finset.range N, E p q * ∑ r ∈ Finset.range N, D q r * z r = z p := by
    intro p hp
    simp only [Finset.mul_sum]
    rw [Finset.sum_comm]
    calc _ = ∑ r ∈ Finset.range N, (∑ q ∈ Finset.range N, E p q * D q r) * z r := by
          refine Finset.sum_congr rfl fun r _ => ?_
          rw [Finset.sum_mul]
          exact Finset.sum_congr rfl fun q _ => by ring
      _ = ∑ r ∈ Finset.range N, (if p = r then 1 else 0) * z r :=
          Finset.sum_congr rfl fun r hr => by rw [(hI p hp r (Finset.mem_range.mp hr)).2]
      _ = z p := by simp [hp]
  have h3 : ∀ p < N, z p - y p = -∑ q ∈ Finset.range N, E p q * ∑ r ∈ Finset.range N, (D' q r - D q r) * z r := by
    intro p hp
    rw [← h2 p hp, hy]
    simp only
    rw [← Finset.sum_sub_distrib, ← Finset.sum_neg_distrib]
    refine Finset.sum_congr rfl fun q hq => ?_
    rw [← h1 q (Finset.mem_range.mp hq)]
    simp only [sub_mul, Finset.sum_sub_distrib]
    ring
  have h4 : c ^ 2 * ∑ p ∈ Finset.range N, (z p - y p) ^ 2 ≤ ε ^ 2 * ∑ p ∈ Finset.range N, z p ^ 2 := by
    rw [Finset.sum_congr rfl fun p hp => by rw [h3 p (Finset.mem_range.mp hp), neg_sq]]
    refine (hE.norm_le _).trans ((mat_frobenius _ z).trans ?_)
    exact mul_le_mul_of_nonneg_right hD (Finset.sum_nonneg fun _ _ => sq_nonneg _)
  -- norms
  set a := Real.sqrt (∑ p ∈ Finset.range N, (z p - y p) ^ 2) with ha
  set b := Real.sqrt (∑ p ∈ Finset.range N, y p ^ 2) with hb
  have ha2 : a ^ 2 = ∑ p ∈ Finset.range N, (z p - y p) ^ 2 := Real.sq_sqrt (Finset.sum_nonneg fun _ _ => sq_nonneg _)
  have hb2 : b ^ 2 = ∑ p ∈ Finset.range N, y p ^ 2 := Real.sq_sqrt (Finset.sum_nonneg fun _ _ => sq_nonneg _)
  have ha0 : 0 ≤ a := Real.sqrt_nonneg _
  have hb0 : 0 ≤ b := Real.sqrt_nonneg _
  have h5 : ∑ p ∈ Finset.range N, z p ^ 2 ≤ (a + b) ^ 2 := by
    have hcs := Finset.sum_mul_sq_le_sq_mul_sq (Finset.range N) (fun p => z p - y p) y
    rw [← ha2, ← hb2, ← mul_pow] at hcs
    have hcs' := abs_le_of_sq_le_sq hcs (mul_nonneg ha0 hb0)
    have e : ∑ p ∈ Finset.range N, z p ^ 2 = a ^ 2 + 2 * ∑ p ∈ Finset.range N, (z p - y p) * y p + b ^ 2 := by
      rw [ha2, hb2, Finset.mul_sum, ← Finset.sum_add_distrib, ← Finset.sum_add_distrib]
      exact Finset.sum_congr rfl fun p _ => by ring
    rw [e]
    nlinarith [(le_abs_self _).trans hcs']
  have h6 : (c * a) ^ 2 ≤ (ε * (a + b)) ^ 2 := by
    rw [mul_pow, mul_pow, ha2]
    exact h4.trans (mul_le_mul_of_nonneg_left h5 (sq_nonneg _))
  have h7 : c * a ≤ ε * (a + b) := by
    have := abs_le_of_sq_le_sq h6 (mul_nonneg hε (add_nonneg ha0 hb0))
    exact (le_abs_self _).trans this
  rw [← ha2, ← hb2, ← mul_pow, ← mul_pow]
  exact pow_le_pow_left₀ (mul_nonneg (by linarith) ha0) (by linarith) 2

/-! ## Layers with nearby factors -/

/-- `p` is a factor whose entries differ from those of `x` by at most `e` times those of `z`, which bound those of `x`. -/
structure Factor.Close (e : ℝ) (x p z : Factor ℝ) : Prop where
  dim : p.dim = x.dim
  dim' : z.dim = x.dim
  abs_le : ∀ i < x.dim, ∀ j < x.dim, |x.mat i j| ≤ z.mat i j
  error : ∀ i < x.dim, ∀ j < x.dim, |p.mat i j - x.mat i j| ≤ e * z.mat i j

/-- Layers with nearby factors. -/
structure Layer.Close (eA eG : ℝ) (x p z : Layer ℝ) : Prop where
  name : p.name = x.name
  pos : p.pos = x.pos
  pos' : z.pos = x.pos
  A : x.pos.hasWeight = true → x.A.Close eA p.A z.A
  B : x.B.Close eG p.B z.B

theorem Factor.Close.addDiag {e : ℝ} (he : 0 ≤ e) {x p z : Factor ℝ} (h : x.Close e p z) {d : ℝ} (hd : 0 ≤ d) :
    (x.addDiag d).Close e (p.addDiag d) (z.addDiag d) where
  dim := h.dim
  dim' := h.dim'
  abs_le i hi j hj := by
    simp only [Factor.addDiag]
    refine (abs_add_le _ _).trans (add_le_add (h.abs_le i hi j hj) ?_)
    split_ifs
    · exact (abs_of_nonneg hd).le
    · simp
  error i hi j hj := by
    simp only [Factor.addDiag]
    rw [add_sub_add_right_eq_sub, mul_add]
    refine (h.error i hi j hj).trans (le_add_of_nonneg_right ?_)
    split_ifs
    · exact mul_nonneg he hd
    · simp

theorem Layer.Close.damped {eA eG : ℝ} (hA : 0 ≤ eA) (hG : 0 ≤ eG) {x p z : Layer ℝ} (h : x.Close eA eG p z) {a b : ℝ}
    (ha : 0 ≤ a) (hb : 0 ≤ b) : (x.damped a b).Close eA eG (p.damped a b) (z.damped a b) :=
  ⟨h.name, h.pos, h.pos', fun hw => (h.A hw).addDiag hA ha, h.B.addDiag hG hb⟩

/-- Blocks of three layers with the same parameters. -/
def Layer.trios (sep : Bool) (shapes : List (List Nat)) (x p z : Layer ℝ) : List (KBlock ℝ × KBlock ℝ × KBlock ℝ) :=
  match x.pos with
  | .both w b => if sep then [(x.wBlock shapes w, p.wBlock shapes w, z.wBlock shapes w),
        (x.bBlock shapes b, p.bBlock shapes b, z.bBlock shapes b)] else [(x.jBlock shapes w b, p.jBlock shapes w b, z.jBlock shapes w b)]
  | .weight w => [(x.wBlock shapes w, p.wBlock shapes w, z.wBlock shapes w)]
  | .bias b => [(x.bBlock shapes b, p.bBlock shapes b, z.bBlock shapes b)]

theorem Layer.trios_fst (sep : Bool) (shapes : List (List Nat)) (x p z : Layer ℝ) :
    (x.trios sep shapes p z).map (fun t => t.1) = x.blocks sep shapes := by
  unfold Layer.trios Layer.blocks
  cases x.pos <;> simp only <;> try split
  all_goals rfl

theorem Layer.trios_snd (sep : Bool) (shapes : List (List Nat)) (x p z : Layer ℝ) (h : p.pos = x.pos) :
    (x.trios sep shapes p z).map (fun t => t.2.1) = p.blocks sep shapes := by
  unfold Layer.trios Layer.blocks
  rw [h]
  cases x.pos <;> simp only <;> try split
  all_goals rfl

theorem Layer.trios_thd (sep : Bool) (shapes : List (List Nat)) (x p z : Layer ℝ) (h : z.pos = x.pos) :
    (x.trios sep shapes p z).map (fun t => t.2.2) = z.blocks sep shapes := by
  unfold Layer.trios Layer.blocks
  rw [h]
  cases x.pos <;> simp only <;> try split
  all_goals rfl

/-- Blocks at the same coordinates with nearby entries. -/
structure BlockClose (e : ℝ) (t : KBlock ℝ × KBlock ℝ × KBlock ℝ) : Prop where
  rows : t.2.1.rows = t.1.rows
  rows' : t.2.2.rows = t.1.rows
  cols : t.2.1.cols = t.1.cols
  cols' : t.2.2.cols = t.1.cols
  idx : t.2.1.idx = t.1.idx
  idx' : t.2.2.idx = t.1.idx
  close : ∀ i < t.1.rows, ∀ j < t.1.cols, ∀ i' < t.1.rows, ∀ j' < t.1.cols,
    |kronEnt t.2.1 i j i' j' - kronEnt t.1 i j i' j'| ≤ e * kronEnt t.2.2 i j i' j'

theorem mul_close {e f x y p q X Y : ℝ} (he : 0 ≤ e) (hx : |x| ≤ X) (hy : |y| ≤ Y) (hp : |p - x| ≤ e * X) (hq : |q - y| ≤ f * Y) :
    |p * q - x * y| ≤ ((1 + f) * (1 + e) - 1) * (X * Y) := by
  have hX : 0 ≤ X := (abs_nonneg _).trans hx
  have hY : 0 ≤ Y := (abs_nonneg _).trans hy
  have h1 : p * q - x * y = (p - x) * (q - y) + (p - x) * y + x * (q - y) := by ring
  have h2 := mul_le_mul hp hq (abs_nonneg _) (mul_nonneg he hX)
  have h3 := mul_le_mul hp hy (abs_nonneg _) (mul_nonneg he hX)
  have h4 := mul_le_mul hx hq (abs_nonneg _) hX
  rw [← abs_mul] at h2 h3 h4
  rw [h1]
  refine (abs_add_three _ _ _).trans ?_
  nlinarith

theorem Layer.trios_close {eA eG : ℝ} (hA : 0 ≤ eA) (hG : 0 ≤ eG) (sep : Bool) (shapes : List (List Nat)) {x p z : Layer ℝ}
    (hfit : x.Fits sep shapes) (h : x.Close eA eG p z) :
    ∀ t ∈ x.trios sep shapes p z, BlockClose ((1 + eA) * (1 + eG) - 1) t := by
  have hW : ∀ w, x.pos.hasWeight = true → wCols shapes w ≤ x.A.dim →
      BlockClose ((1 + eA) * (1 + eG) - 1) (x.wBlock shapes w, p.wBlock shapes w, z.wBlock shapes w) := by
    intro w hw hd
    refine ⟨h.B.dim, h.B.dim', rfl, rfl, rfl, rfl, fun i hi j hj i' hi' j' hj' => ?_⟩
    have hj : j < x.A.dim := lt_of_lt_of_le hj hd
    have hj' : j' < x.A.dim := lt_of_lt_of_le hj' hd
    exact mul_close hG (h.B.abs_le i hi i' hi') ((h.A hw).abs_le j' hj' j hj) (h.B.error i hi i' hi') ((h.A hw).error j' hj' j hj)
  have hb : ∀ b, BlockClose ((1 + eA) * (1 + eG) - 1) (x.bBlock shapes b, p.bBlock shapes b, z.bBlock shapes b) := by
    intro b
    refine ⟨h.B.dim, h.B.dim', rfl, rfl, rfl, rfl, fun i hi j hj i' hi' j' hj' => ?_⟩
    refine mul_close hG (h.B.abs_le i hi i' hi') (y := 1) (Y := 1) (q := 1) (by simp) (h.B.error i hi i' hi') ?_
    simpa using hA
  have hJ : ∀ w b, x.pos.hasWeight = true → wCols shapes w + 1 ≤ x.A.dim →
      BlockClose ((1 + eA) * (1 + eG) - 1) (x.jBlock shapes w b, p.jBlock shapes w b, z.jBlock shapes w b) := by
    intro w b hw hd
    refine ⟨h.B.dim, h.B.dim', rfl, rfl, rfl, rfl, fun i hi j hj i' hi' j' hj' => ?_⟩
    have hj : j < x.A.dim := lt_of_lt_of_le hj hd
    have hj' : j' < x.A.dim := lt_of_lt_of_le hj' hd
    exact mul_close hG (h.B.abs_le i hi i' hi') ((h.A hw).abs_le j' hj' j hj) (h.B.error i hi i' hi') ((h.A hw).error j' hj' j hj)
  intro t ht
  unfold Layer.trios at ht
  unfold Layer.Fits at hfit
  cases hp : x.pos with
  | both w b =>
    rw [hp] at ht hfit
    have hw : x.pos.hasWeight = true := by rw [hp]; rfl
    cases sep with
    | true =>
      simp only [if_true, List.mem_cons, List.not_mem_nil, or_false] at ht
      rcases ht with rfl | rfl
      · exact hW w hw (by have := hfit.2.2; simp at this; omega)
      · exact hb b
    | false =>
      simp only [Bool.false_eq_true, if_false, List.mem_cons, List.not_mem_nil, or_false] at ht
      subst ht
      exact hJ w b hw (by have := hfit.2.2; simp at this; omega)
  | weight w =>
    rw [hp] at ht hfit
    simp only [List.mem_cons, List.not_mem_nil, or_false] at ht
    subst ht
    exact hW w (by rw [hp]; rfl) hfit.2.ge
  | bias b =>
    rw [hp] at ht
    simp only [List.mem_cons, List.not_mem_nil, or_false] at ht
    subst ht
    exact hb b

/-- Entries of block-diagonal matrices with nearby blocks. -/
theorem kron_close {e : ℝ} (ts : List (KBlock ℝ × KBlock ℝ × KBlock ℝ)) (ht : ∀ t ∈ ts, BlockClose e t) {N : Nat}
    (hN : (ts.flatMap fun t => t.1.coords).Perm (List.range N)) (D D' M : Mat ℝ) (hD : IsKron (ts.map fun t => t.1) D)
    (hD' : IsKron (ts.map fun t => t.2.1) D') (hM : IsKron (ts.map fun t => t.2.2) M) (r c : Nat) (hr : r < N) (hc : c < N) :
    |D' r c - D r c| ≤ e * M r c := by
  have hg : GTiles (fun t : KBlock ℝ × KBlock ℝ × KBlock ℝ => t.1) ts N := hN
  have hD1 := (blockDiag_map _ _ _ _ _).mp ((isKron_iff _ _).mp hD)
  have hD2 := (blockDiag_map _ _ _ _ _).mp ((isKron_iff _ _).mp hD')
  have hD3 := (blockDiag_map _ _ _ _ _).mp ((isKron_iff _ _).mp hM)
  obtain ⟨l, hl, i, hi, j, hj, rfl⟩ := hg.surj r hr
  obtain ⟨l', hl', i', hi', j', hj', rfl⟩ := hg.surj c hc
  have b := ht _ (List.getElem_mem hl)
  have b' := ht _ (List.getElem_mem hl')
  have e1 := hD1 l hl l' hl' i hi j hj i' hi' j' hj'
  have e2 := hD2 l hl l' hl' i (by simpa [b.rows] using hi) j (by simpa [b.cols] using hj) i' (by simpa [b'.rows] using hi') j'
    (by simpa [b'.cols] using hj')
  have e3 := hD3 l hl l' hl' i (by simpa [b.rows'] using hi) j (by simpa [b.cols'] using hj) i' (by simpa [b'.rows'] using hi') j'
    (by simpa [b'.cols'] using hj')
  simp only [id] at e1 e2 e3
  rw [b.idx, b'.idx] at e2
  rw [b.idx', b'.idx'] at e3
  rw [e1, e2, e3]
  by_cases h : l = l'
  · subst h
    simp only [if_true]
    exact b.close i hi j hj i' hi' j' hj'
  · simp [h]

/-- Nearby factors give nearby KFAC matrices. -/
theorem kfacBlocks_close {ι : Type _} {eA eG : ℝ} (hA : 0 ≤ eA) (hG : 0 ≤ eG) (sep : Bool) (shapes : List (List Nat)) (L : List ι)
    (x p z : ι → Layer ℝ) (hc : ∀ l ∈ L, (x l).Close eA eG (p l) (z l)) (hfit : ∀ l ∈ L, (x l).Fits sep shapes)
    (hperm : (L.flatMap fun l => (x l).pos.positions).Perm (List.range shapes.length)) (D D' M : Mat ℝ)
    (hD : IsKron (kfacBlocks sep shapes (L.map x)) D) (hD' : IsKron (kfacBlocks sep shapes (L.map p)) D')
    (hM : IsKron (kfacBlocks sep shapes (L.map z)) M) (r c : Nat) (hr : r < (shapes.map List.prod).sum)
    (hcc : c < (shapes.map List.prod).sum) : |D' r c - D r c| ≤ ((1 + eA) * (1 + eG) - 1) * M r c := by
  have hflat : ∀ (f : KBlock ℝ × KBlock ℝ × KBlock ℝ → KBlock ℝ) (g : ι → Layer ℝ),
      (∀ l ∈ L, ((x l).trios sep shapes (p l) (z l)).map f = (g l).blocks sep shapes) →
      kfacBlocks sep shapes (L.map g) = (L.flatMap fun l => (x l).trios sep shapes (p l) (z l)).map f := by
    intro f g h
    rw [kfacBlocks, List.flatMap_map, List.map_flatMap]
    exact (List.flatMap_congr fun l hl => h l hl).symm
  rw [hflat (fun t => t.1) x fun l _ => Layer.trios_fst _ _ _ _ _] at hD
  rw [hflat (fun t => t.2.1) p fun l hl => Layer.trios_snd _ _ _ _ _ (hc l hl).pos] at hD'
  rw [hflat (fun t => t.2.2) z fun l hl => Layer.trios_thd _ _ _ _ _ (hc l hl).pos'] at hM
  refine kron_close _ (fun t ht => ?_) ?_ D D' M hD hD' hM r c hr hcc
  · obtain ⟨l, hl, ht⟩ := List.mem_flatMap.mp ht
    exact Layer.trios_close hA hG sep shapes (hfit l hl) (hc l hl) t ht
  · have : ((L.flatMap fun l => (x l).trios sep shapes (p l) (z l)).flatMap fun t => t.1.coords) =
        L.flatMap fun l => ((x l).blocks sep shapes).flatMap fun b => b.coords := by
      rw [List.flatMap_assoc]
      refine List.flatMap_congr fun l _ => ?_
      rw [← Layer.trios_fst sep shapes (x l) (p l) (z l), List.flatMap_map]
    rw [this, ← range_flatMap_posCoords]
    refine (perm_flatMap_of_forall _ _ L fun l hl => Layer.blocks_coords sep shapes (x l) (hfit l hl)).trans ?_
    rw [← List.flatMap_assoc]
    exact hperm.flatMap_right _

/-! ## The inverse of KFAC -/

theorem Factor.Close.posDef {e : ℝ} (he : 0 ≤ e) {x p z : Factor ℝ} (h : x.Close e p z) (hx : IsGram x.dim x.mat) (hz : IsGram x.dim z.mat)
    (hp : ∀ i < x.dim, ∀ j < x.dim, p.mat i j = p.mat j i) {d : ℝ} (hd : e * (∑ i ∈ Finset.range x.dim, z.mat i i) < d) :
    (p.addDiag d).PosDef := by
  refine ⟨fun i hi j hj => ?_, fun v hv => ?_⟩
  · simp only [Factor.addDiag] at hi hj ⊢
    rw [hp i (h.dim ▸ hi) j (h.dim ▸ hj)]
    simp only [eq_comm]
  · simp only [Factor.addDiag] at hv ⊢
    rw [h.dim] at hv ⊢
    refine lt_of_lt_of_eq (damped_pos he hx hz h.error hd v hv) ?_
    rw [quadForm, Finset.mul_sum, ← Finset.sum_add_distrib]
    refine Finset.sum_congr rfl fun i hi => ?_
    simp only [mul_add, add_mul, Finset.sum_add_distrib]
    congr 1
    rw [Finset.sum_eq_single i]
    · simp; ring
    · intro k _ hk
      simp [Ne.symm hk]
    · exact fun hn => absurd hi hn

variable {Θ B G : Type}

/-- **C133** (nearby factors): `s` is a new KFAC operator, `t` an operator on the same model that holds other factors, whose entries differ from
those of `s` by at most `eA` and `eG` times bounds on the latter. `M` is the KFAC matrix of the bounds, damped as the inverse does it. If the
dampings exceed the errors, then both inverses exist, and all products with them differ by at most `ε / (c - ε)` times the product with the inverse
of `s`, in the Euclidean norm; `c` is the damping's lower bound (C98), and `ε` is the error of the factors times the Frobenius norm of `M`. -/
theorem kfacInverse_nearby (w : KWorld Θ B G) (s t : KState Θ) (hf : s.IsFresh) (hg : w.Good s.cfg) (hsep : t.cfg.sep = s.cfg.sep)
    (ht : t.gradCov ≠ []) (la : LinAlg) (hla : la.Correct) (dt : FloatType) (shapes : List (List Nat)) {ι : Type _} (L : List ι)
    (x p z : ι → Layer ℝ) (hK : KfacLayers s.cfg.sep shapes w.mapping (w.factors s).1 (w.factors s).2 (L.map x))
    (hK' : KfacLayers s.cfg.sep shapes w.mapping t.inCov t.gradCov (L.map p))
    (hnone : ∀ l ∈ L, (x l).pos.hasWeight = false → t.inCov.get (x l).name = none)
    {eA eG : ℝ} (heA : 0 ≤ eA) (heG : 0 ≤ eG) (hclose : ∀ l ∈ L, (x l).Close eA eG (p l) (z l))
    (hzA : ∀ l ∈ L, (x l).pos.hasWeight = true → IsGram (x l).A.dim (z l).A.mat) (hzB : ∀ l ∈ L, IsGram (x l).B.dim (z l).B.mat)
    (hpA : ∀ l ∈ L, (x l).pos.hasWeight = true → ∀ i < (x l).A.dim, ∀ j < (x l).A.dim, (p l).A.mat i j = (p l).A.mat j i)
    (hpB : ∀ l ∈ L, ∀ i < (x l).B.dim, ∀ j < (x l).B.dim, (p l).B.mat i j = (p l).B.mat j i)
    (cfg : InvCfg) (hex : cfg.exact = false) (hh : cfg.heuristic = false) (a b : ℝ)
    (hd : cfg.damping = .pair a b ∨ (cfg.damping = .value a ∧ b = a)) (ha : 0 < a) (hb : 0 < b)
    (hda : ∀ l ∈ L, (x l).pos.hasWeight = true → eA * (∑ i ∈ Finset.range (x l).A.dim, (z l).A.mat i i) < a)
    (hdb : ∀ l ∈ L, eG * (∑ i ∈ Finset.range (x l).B.dim, (z l).B.mat i i) < b)
    (c : ℝ) (hc : 0 < c) (hw : c ≤ a * b) (hbias : ∀ l ∈ L, (x l).pos.ownBias s.cfg.sep = true → c ≤ b)
    (M : Mat ℝ) (hM : IsKron (kfacBlocks s.cfg.sep shapes (L.map fun l => (z l).damped a b)) M) (ε : ℝ) (hε : 0 ≤ ε) (hεc : ε < c)
    (hεM : ((1 + eA) * (1 + eG) - 1) ^ 2 * ∑ r ∈ Finset.range (shapes.map List.prod).sum,
      ∑ k ∈ Finset.range (shapes.map List.prod).sum, M r k ^ 2 ≤ ε ^ 2) :
    ∃ E E', Represents (KInvState.op w la dt shapes ⟨s, cfg, []⟩) E ∧ Represents (KInvState.op w la dt shapes ⟨t, cfg, []⟩) E' ∧
      ∀ g : Nat → ℝ, (c - ε) ^ 2 * ∑ r ∈ Finset.range (shapes.map List.prod).sum,
          (∑ k ∈ Finset.range (shapes.map List.prod).sum, E' r k * g k - ∑ k ∈ Finset.range (shapes.map List.prod).sum, E r k * g k) ^ 2 ≤
        ε ^ 2 * ∑ r ∈ Finset.range (shapes.map List.prod).sum, (∑ k ∈ Finset.range (shapes.map List.prod).sum, E r k * g k) ^ 2 := by
  have hdamp : ∀ aaT ggT, computeDamping cfg aaT ggT = .ok (.fin a, .fin b) := by
    intro aaT ggT
    rcases hd with h | ⟨h, rfl⟩
    · exact (plainDamping cfg hh aaT ggT).2 a b h
    · exact (plainDamping cfg hh aaT ggT).1 b h
  have hgram := kfacFactors_gram s.cfg w.layers (w.batches s.model s.cfg (w.seeded s.seed) w.data)
  have mem : ∀ l ∈ L, x l ∈ L.map x := fun l hl => List.mem_map_of_mem hl
  have hxA : ∀ l ∈ L, (x l).pos.hasWeight = true → IsGram (x l).A.dim (x l).A.mat :=
    fun l hl hw => hgram.1 _ _ (hK.inCov_get _ (mem l hl) hw)
  have hxB : ∀ l ∈ L, IsGram (x l).B.dim (x l).B.mat := fun l hl => hgram.2 _ _ (hK.gradCov_get _ (mem l hl))
  have hblk := damped_blocks_ge hK hgram.1 hgram.2 (fun _ => a) (fun _ => b) (fun _ _ => ha.le) (fun _ _ => hb.le) c (fun _ _ _ => hw) (by
    intro l hl
    obtain ⟨l', hl', rfl⟩ := List.mem_map.mp hl
    exact hbias l' hl')
  have htile := damped_tiles hK (fun _ => a) fun _ => b
  have hDk := scatter_isKron _ _ htile
  obtain ⟨E, hE, hI⟩ := kfacInverse_fresh_damped w s hf hg la hla dt shapes _ hK cfg hex (fun _ => a) (fun _ => b)
    (fun _ _ => hdamp _ _) (fun _ _ => ha) (fun _ _ => hb) _ hDk
  have hEb : BoundedInverse (shapes.map List.prod).sum c E := by
    refine matInv_bounded _ c hc _ E ?_ (kron_ge _ _ htile _ hDk c hblk) hI
    refine (kron_psd _ _ htile _ hDk fun k hk => ?_).1
    obtain ⟨u, v, hu, hv, -, hA, hB⟩ := hblk k hk
    exact ⟨isGram_of_sub hu hA, isGram_of_sub hv hB⟩
  have htile' := damped_tiles hK' (fun _ => a) fun _ => b
  have hDk' := scatter_isKron _ _ htile'
  have hens : ensureKfac w none t = (.ok (), t) := by
    unfold ensureKfac
    have : t.gradCov.isEmpty = false := by simpa using ht
    simp [this]
  obtain ⟨E', hE', hI'⟩ := kfacInverse_damped w la hla dt shapes ⟨t, cfg, []⟩ t hens (L.map p) (by rw [hsep]; exact hK') (by
      intro l hl hw
      obtain ⟨l, hl', rfl⟩ := List.mem_map.mp hl
      rw [(hclose l hl').pos] at hw
      rw [(hclose l hl').name]
      exact hnone l hl' hw) (CacheOk.nil _ _ _ _ _) hex (fun _ => a) (fun _ => b) (fun _ _ => hdamp _ _) (by
      intro l hl hw
      obtain ⟨l, hl', rfl⟩ := List.mem_map.mp hl
      rw [(hclose l hl').pos] at hw
      exact ((hclose l hl').A hw).posDef heA (hxA l hl' hw) (hzA l hl' hw) (hpA l hl' hw) (hda l hl' hw)) (by
      intro l hl
      obtain ⟨l, hl', rfl⟩ := List.mem_map.mp hl
      exact (hclose l hl').B.posDef heG (hxB l hl') (hzB l hl') (hpB l hl') (hdb l hl')) _ (by rw [hsep]; exact hDk')
  refine ⟨E, E', hE, hE', fun g => inverse_nearby hε hεc hEb hI hI' ?_ g⟩
  refine le_trans ?_ hεM
  rw [Finset.mul_sum]
  refine Finset.sum_le_sum fun r hr => ?_
  rw [Finset.mul_sum]
  refine Finset.sum_le_sum fun k hk => ?_
  have hcl := kfacBlocks_close heA heG s.cfg.sep shapes L (fun l => (x l).damped a b) (fun l => (p l).damped a b)
    (fun l => (z l).damped a b) (fun l hl => (hclose l hl).damped heA heG ha.le hb.le) (fun l hl => by
      have := hK.fits _ (mem l hl)
      unfold Layer.Fits at this ⊢
      exact this) (by
      have := hK.perm
      rw [List.flatMap_map] at this
      exact this) _ _ M (by rw [List.map_map] at hDk; exact hDk) (by rw [List.map_map] at hDk'; exact hDk') hM r k
      (Finset.mem_range.mp hr) (Finset.mem_range.mp hk)
  rw [← mul_pow, ← sq_abs (_ - _)]
  simp only [List.map_map]
  exact pow_le_pow_left₀ (abs_nonneg _) hcl 2

/-! ## Factors that are computed in floating point -/

section rounding

variable {ρ : Rounding}

/-- The numbers that a factor holds. -/
def valFactor (F : Factor (Fl ρ)) : Factor ℝ := ⟨F.dim, fun i j => (F.mat i j).val⟩

/-- The numbers that a dictionary of factors holds. -/
def valDict (d : Dict (Factor (Fl ρ))) : Dict (Factor ℝ) := d.map fun e => (e.1, valFactor e.2)

theorem valDict_get (d : Dict (Factor (Fl ρ))) (name : String) : (valDict d).get name = (d.get name).map valFactor := by
  unfold valDict Dict.get
  induction d with
  | nil => rfl
  | cons e d ih =>
    obtain ⟨n, F⟩ := e
    rw [List.map_cons, List.lookup_cons, List.lookup_cons]
    cases name == n
    · exact ih
    · rfl

/-- There is no computed input covariance for a layer without weight. -/
theorem kfacFactorsFl_bias (π : Rounding) (σ : FlSum ρ) (cfg : KfacCfg) (layers : List KLayer) (hnd : (layers.map KLayer.name).Nodup)
    (batches : List (List (FlDatum ρ))) (l : KLayer) (hl : l ∈ layers) (hw : l.pos.has "weight" = false) :
    (kfacFactorsFl π σ cfg layers batches).1.get l.name = none := by
  have : ∀ st : Dict (Factor (Fl ρ)) × Dict (Factor (Fl ρ)),
      (batches.foldl (fun st b => (forwardFl σ cfg layers b st.1, backwardFl π σ cfg layers b st.2)) st).1.get l.name =
        st.1.get l.name := by
    induction batches with
    | nil => exact fun _ => rfl
    | cons b bs ih =>
      intro st
      rw [List.foldl_cons, ih]
      refine foldl_addCovFl_notMem _ _ _ (fun m hm e => ?_) _
      obtain ⟨hm, hmw⟩ := List.mem_filter.mp hm
      obtain rfl := List.inj_on_of_nodup_map hnd hm hl e
      rw [hw] at hmw
      cases hmw
  exact this ([], [])

/-- The layer with the computed factors. -/
noncomputable def PLayer.computedLayer (f : Dict (Factor (Fl ρ)) × Dict (Factor (Fl ρ))) (l : PLayer) : Layer ℝ :=
  ⟨l.name, l.pos, valFactor ((f.1.get l.name).getD ⟨0, fun _ _ => 0⟩), valFactor ((f.2.get l.name).getD ⟨0, fun _ _ => 0⟩)⟩

theorem FactorWithin.close {e : ℝ} {F : Factor (Fl ρ)} {a A : Factor ℝ} (h : FactorWithin (1 + e) F a A) : a.Close e (valFactor F) A := by
  obtain ⟨h1, h2, h3⟩ := h
  refine ⟨h1.symm, h2.trans h1.symm, fun i hi j hj => ?_, fun i hi j hj => ?_⟩
  · exact (h3 i (h1 ▸ hi) j (h1 ▸ hj)).1
  · have := (h3 i (h1 ▸ hi) j (h1 ▸ hj)).2
    rwa [add_sub_cancel_left] at this

/-- What C131 says about the factors of a run. -/
theorem RoundedRun.factors {π : Rounding} (σ : FlSum ρ) {η : ℝ} {cfg : KfacCfg} {shapes : List (List Nat)} {layers : List PLayer}
    {batches : List (List (Computed ρ))} {B p q : Nat} {eA eG : ℝ} (hrun : RoundedRun π η cfg shapes layers batches B p q eA eG)
    (l : PLayer) (hll : l ∈ layers) :
    let f := kfacFactorsFl π σ cfg (layers.map PLayer.klayer) (batches.map fun b => b.map Computed.fl)
    let x := l.layer cfg (batches.flatten.map Computed.exact)
    (l.pos.hasWeight = true → ∃ F, f.1.get l.name = some F ∧ x.A.Close eA (valFactor F) (l.boundLayer cfg batches.flatten).A ∧
      ∀ i j, F.mat i j = F.mat j i) ∧
    ∃ F, f.2.get l.name = some F ∧ x.B.Close eG (valFactor F) (l.boundLayer cfg batches.flatten).B ∧ ∀ i j, F.mat i j = F.mat j i := by
  intro f x
  obtain ⟨hnet, ⟨hη, heA0, heG0⟩, hshapes, hdims, hne, hB, ⟨hN, hT, hC, hmc⟩, hnum, hx, hg, heA, heG⟩ := hrun
  obtain ⟨l3, l4, l5⟩ := hnum l hll
  have hnames : ((layers.map PLayer.klayer).map KLayer.name).Nodup := by
    rw [List.map_map]
    exact hnet.names
  have hsymm := kfac_rounding_symmetric π σ cfg (layers.map PLayer.klayer) (batches.map fun b => b.map Computed.fl)
  constructor
  · intro hw
    have hw' : l.klayer.pos.has "weight" = true := (Dict.has_dict_weight l.pos).trans hw
    obtain ⟨F, f1, f2, f3⟩ := kfac_input_rounding_within π σ hη cfg _ hnames batches hne hB l.klayer (List.mem_map_of_mem hll) hw' hN l3
      l4 l5 (hx l hll hw)
    refine ⟨F, f1, FactorWithin.close ⟨f2.symm, f2.symm, fun i hi j hj => (f3 i hi j hj).mono (by linarith [heA l hll hw])⟩,
      hsymm.1 _ _ f1⟩
  · by_cases hf : cfg.fisher = .forwardOnly
    · obtain ⟨F, f1, f2, f3⟩ := kfac_rounding_forward_only π σ cfg hf _ hnames (batches.map fun b => b.map Computed.fl) (by simpa using hne)
        l.klayer (List.mem_map_of_mem hll)
      refine ⟨F, f1, FactorWithin.close ⟨f2.symm, f2.symm, fun i hi j hj => ?_⟩, hsymm.2 _ _ f1⟩
      have e1 : x.B.mat i j = if i = j then 1 else 0 := by
        simp [x, PLayer.layer, specGradFactor, hf]
      have e2 : (l.boundLayer cfg batches.flatten).B.mat i j = if i = j then 1 else 0 := by
        simp [PLayer.boundLayer, hf]
      rw [e1, e2]
      refine ⟨by split_ifs <;> simp, ?_⟩
      rw [f3]
      simp only [sub_self, abs_zero]
      split_ifs <;> linarith
    · obtain ⟨F, f1, f2, f3⟩ := kfac_grad_rounding_within π σ hη cfg hf _ hnames batches hne hB l.klayer (List.mem_map_of_mem hll) hT hC hmc
        l3 (hg hf l hll)
      refine ⟨F, f1, FactorWithin.close ⟨f2.symm, f2.symm, fun i hi j hj => ?_⟩, hsymm.2 _ _ f1⟩
      have e2 : (l.boundLayer cfg batches.flatten).B.mat = boundGradFactor cfg l.klayer batches.flatten := by
        simp [PLayer.boundLayer, hf]
      rw [e2]
      exact (f3 i hi j hj).mono (by linarith [heG hf l hll])

/-- The factors of the bounds are positive semi-definite. -/
theorem boundLayer_gram (cfg : KfacCfg) (data : List (Computed ρ)) (l : PLayer) :
    (l.pos.hasWeight = true → IsGram (l.boundLayer cfg data).A.dim (l.boundLayer cfg data).A.mat) ∧
      ∀ n, IsGram n (l.boundLayer cfg data).B.mat := by
  refine ⟨fun hw => ?_, fun n => ?_⟩
  · exact inputFactor_isGram cfg l.klayer ((Dict.has_dict_weight l.pos).trans hw) _
  · by_cases hf : cfg.fisher = .forwardOnly
    · have e : (l.boundLayer cfg data).B.mat = fun i j => if i = j then 1 else 0 := by simp [PLayer.boundLayer, hf]
      rw [e]
      exact isGram_one n
    · have e : (l.boundLayer cfg data).B.mat = boundGradFactor cfg l.klayer data := by simp [PLayer.boundLayer, hf]
      rw [e]
      exact boundGradFactor_gram cfg l.klayer data n

/-- **C133** (rounding): the factors of `t` are those that a run in floating point computes, and `s` is the operator in exact arithmetic. If the
dampings exceed the rounding errors of the factors, then the Cholesky decompositions of the damped computed factors exist, and the products with
both inverses differ by at most `ε / (c - ε)` times the exact product. -/
theorem kfacInverse_rounding (π : Rounding) (σ : FlSum ρ) {η : ℝ} (shapes : List (List Nat)) (layers : List PLayer) (hlne : layers ≠ [])
    (batches : List (List (Computed ρ))) {Bs p q : Nat} {eA eG : ℝ} (w : KWorld Θ B G) (s t : KState Θ) (hf : s.IsFresh)
    (hrun : RoundedRun π η s.cfg shapes layers batches Bs p q eA eG) (hl : w.layers = layers.map PLayer.klayer)
    (hdata : w.batches s.model s.cfg (w.seeded s.seed) w.data = batches.map fun b => b.map Computed.exact) (hcfg : t.cfg = s.cfg)
    (hin : t.inCov = valDict (kfacFactorsFl π σ s.cfg w.layers (batches.map fun b => b.map Computed.fl)).1)
    (hgrad : t.gradCov = valDict (kfacFactorsFl π σ s.cfg w.layers (batches.map fun b => b.map Computed.fl)).2)
    (la : LinAlg) (hla : la.Correct) (dt : FloatType) (cfg : InvCfg) (hex : cfg.exact = false) (hh : cfg.heuristic = false) (a b : ℝ)
    (hd : cfg.damping = .pair a b ∨ (cfg.damping = .value a ∧ b = a)) (ha : 0 < a) (hb : 0 < b)
    (hda : ∀ l ∈ layers, l.pos.hasWeight = true → eA * (∑ i ∈ Finset.range (l.boundLayer s.cfg batches.flatten).A.dim,
      (l.boundLayer s.cfg batches.flatten).A.mat i i) < a)
    (hdb : ∀ l ∈ layers, eG * (∑ i ∈ Finset.range l.dout, (l.boundLayer s.cfg batches.flatten).B.mat i i) < b)
    (c : ℝ) (hc : 0 < c) (hw : c ≤ a * b) (hbias : ∀ l ∈ layers, l.pos.ownBias s.cfg.sep = true → c ≤ b)
    (M : Mat ℝ) (hM : IsKron (kfacBlocks s.cfg.sep shapes (layers.map fun l => (l.boundLayer s.cfg batches.flatten).damped a b)) M)
    (ε : ℝ) (hε : 0 ≤ ε) (hεc : ε < c) (hεM : ((1 + eA) * (1 + eG) - 1) ^ 2 * ∑ r ∈ Finset.range (shapes.map List.prod).sum,
      ∑ k ∈ Finset.range (shapes.map List.prod).sum, M r k ^ 2 ≤ ε ^ 2) :
    ∃ E E', Represents (KInvState.op w la dt shapes ⟨s, cfg, []⟩) E ∧ Represents (KInvState.op w la dt shapes ⟨t, cfg, []⟩) E' ∧
      ∀ g : Nat → ℝ, (c - ε) ^ 2 * ∑ r ∈ Finset.range (shapes.map List.prod).sum,
          (∑ k ∈ Finset.range (shapes.map List.prod).sum, E' r k * g k - ∑ k ∈ Finset.range (shapes.map List.prod).sum, E r k * g k) ^ 2 ≤
        ε ^ 2 * ∑ r ∈ Finset.range (shapes.map List.prod).sum, (∑ k ∈ Finset.range (shapes.map List.prod).sum, E r k * g k) ^ 2 := by
  have hnames : ((layers.map PLayer.klayer).map KLayer.name).Nodup := by
    rw [List.map_map]
    exact hrun.net.names
  have hne' : (batches.map fun b => b.map Computed.exact) ≠ [] := by simpa using hrun.batches_ne
  have hflat : (batches.map fun b => b.map Computed.exact).flatten = batches.flatten.map Computed.exact := by
    rw [List.map_flatten]
  obtain ⟨hN, hT, hC, hmc⟩ := hrun.pos
  have hgood : w.Good s.cfg := by
    refine ⟨by rw [hl]; exact hnames, by rw [hl]; simpa using hlne, fun h => ?_, hT, hC, hmc⟩
    rw [h] at hdata
    exact hne' hdata.symm
  have hmap : w.mapping = pMapping layers := by
    rw [KWorld.mapping, hl, List.map_map]
    rfl
  have hK := pnet_kfacLayers (cfg := s.cfg) hrun.net _ hne' hT hC hmc
  rw [hflat, ← hmap] at hK
  rw [hl] at hin hgrad
  set f := kfacFactorsFl π σ s.cfg (layers.map PLayer.klayer) (batches.map fun b => b.map Computed.fl) with hfdef
  have hfac := fun l hl => hrun.factors σ l hl
  have hclose : ∀ l ∈ layers, (l.layer s.cfg (batches.flatten.map Computed.exact)).Close eA eG (l.computedLayer f)
      (l.boundLayer s.cfg batches.flatten) := by
    intro l hl
    obtain ⟨h1, F, h2, h3, -⟩ := hfac l hl
    refine ⟨rfl, rfl, rfl, fun hw => ?_, ?_⟩
    · obtain ⟨F, h1, h2, -⟩ := h1 hw
      simp only [PLayer.computedLayer, hfdef, h1, Option.getD_some]
      exact h2
    · simp only [PLayer.computedLayer, hfdef, h2, Option.getD_some]
      exact h3
  refine kfacInverse_nearby w s t hf hgood (by rw [hcfg]) ?_ la hla dt shapes layers
    (PLayer.layer s.cfg (batches.flatten.map Computed.exact)) (PLayer.computedLayer f) (PLayer.boundLayer s.cfg batches.flatten) ?_ ?_ ?_
    hrun.nonneg.2.1 hrun.nonneg.2.2 hclose ?_ ?_ ?_ ?_ cfg hex hh a b hd ha hb hda hdb c hc hw hbias M hM ε hε hεc hεM
  · obtain ⟨l, hl'⟩ := List.exists_mem_of_ne_nil _ hlne
    obtain ⟨-, F, h2, -⟩ := hfac l hl'
    intro h
    have := valDict_get f.2 l.name
    rw [← hgrad, h, hfdef, h2] at this
    cases this
  · rw [KWorld.factors, hl, hdata]
    exact hK
  · refine ⟨by rw [hmap, pMapping, List.map_map]; rfl, ?_, ?_, ?_, ?_⟩
    · rw [List.flatMap_map]
      exact hrun.net.perm
    · intro l hm hw'
      obtain ⟨l, hl', rfl⟩ := List.mem_map.mp hm
      obtain ⟨F, h1, -⟩ := (hfac l hl').1 hw'
      rw [hin, valDict_get]
      simp only [PLayer.computedLayer, hfdef, h1, Option.getD_some, Option.map_some]
    · intro l hm
      obtain ⟨l, hl', rfl⟩ := List.mem_map.mp hm
      obtain ⟨-, F, h1, -⟩ := hfac l hl'
      rw [hgrad, valDict_get]
      simp only [PLayer.computedLayer, hfdef, h1, Option.getD_some, Option.map_some]
    · intro l hm
      obtain ⟨l, hl', rfl⟩ := List.mem_map.mp hm
      have hfit := hK.fits _ (List.mem_map_of_mem hl')
      have hcl := hclose l hl'
      unfold Layer.Fits at hfit ⊢
      have hp : (l.computedLayer f).pos = l.pos := rfl
      have hp' : (l.layer s.cfg (batches.flatten.map Computed.exact)).pos = l.pos := rfl
      rw [hp'] at hfit
      rw [hp]
      have hA := hcl.A
      rw [hp'] at hA
      cases hpos : l.pos with
      | both w b =>
        rw [hpos] at hfit hA
        simp only at hfit ⊢
        rw [hcl.B.dim, (hA rfl).dim]
        exact hfit
      | weight w =>
        rw [hpos] at hfit hA
        simp only at hfit ⊢
        rw [hcl.B.dim, (hA rfl).dim]
        exact hfit
      | bias b =>
        rw [hpos] at hfit
        simp only at hfit ⊢
        rw [hcl.B.dim]
        exact hfit
  · intro l hl' hw'
    rw [hin, valDict_get]
    have := kfacFactorsFl_bias π σ s.cfg _ hnames (batches.map fun b => b.map Computed.fl) l.klayer (List.mem_map_of_mem hl')
      ((Dict.has_dict_weight l.pos).trans hw')
    change Dict.get _ l.name = _ at this
    change Option.map _ (f.1.get l.name) = _
    rw [hfdef, this]
    rfl
  · intro l hl' hw'
    exact (boundLayer_gram s.cfg batches.flatten l).1 hw'
  · intro l hl'
    exact (boundLayer_gram s.cfg batches.flatten l).2 _
  · intro l hl' hw' i _ j _
    obtain ⟨F, h1, -, h3⟩ := (hfac l hl').1 hw'
    simp only [PLayer.computedLayer, hfdef, h1, Option.getD_some, valFactor, h3 i j]
  · intro l hl' i _ j _
    obtain ⟨-, F, h1, -, h3⟩ := hfac l hl'
    simp only [PLayer.computedLayer, hfdef, h1, Option.getD_some, valFactor, h3 i j]

end rounding

/-! ## Non-vacuity: `float32` with damping one -/

/-- A linear layer with one weight. -/
def onePLayer : PLayer := ⟨"l", .weight 0, 1, 1, 1⟩

/-- Input and gradient are one. -/
noncomputable def oneDatum : FlDatum (binaryFloat 23) := ⟨fun _ _ _ => 1, fun _ _ _ _ => 1⟩

noncomputable def oneWorld : KWorld Unit Unit Unit := ⟨[onePLayer.klayer], [()], fun _ => (), fun _ _ _ _ => ([(takenExact oneDatum).exact], ())⟩

/-- The operator in exact arithmetic. -/
noncomputable def oneState : KState Unit := ⟨(), roundCfg, 0, (1, 1), false, [], [], none, none, none, none, 0, 0⟩

/-- The operator with factors that have been computed in `float32`. -/
noncomputable def oneStateFl (σ : FlSum (binaryFloat 23)) : KState Unit :=
  { oneState with
    inCov := valDict (kfacFactorsFl (binaryFloat 52) σ roundCfg oneWorld.layers [[oneDatum]]).1
    gradCov := valDict (kfacFactorsFl (binaryFloat 52) σ roundCfg oneWorld.layers [[oneDatum]]).2 }

theorem oneBound (l : PLayer) (hl : l ∈ [onePLayer]) :
    (l.boundLayer roundCfg [takenExact oneDatum]).A.mat 0 0 = 1 ∧ (l.boundLayer roundCfg [takenExact oneDatum]).B.mat 0 0 = 1 := by
  obtain rfl : l = onePLayer := by simpa using hl
  constructor
  · simp [PLayer.boundLayer, specInputFactor, specInputVec, roundCfg, onePLayer, PLayer.klayer, Computed.bound, takenExact, oneDatum]
  · simp [PLayer.boundLayer, boundGradFactor, specGradScale, numPasses, rowCount, gradRow, roundCfg, onePLayer, PLayer.klayer, takenExact, oneDatum]

theorem oneRun : RoundedRun (binaryFloat 52) 0 roundCfg [[1, 1]] [onePLayer] [[takenExact oneDatum]] 1 2 1 (1 / 1000) (1 / 1000) where
  net := ⟨by simp [onePLayer, PLayer.Fits, wCols], by simp, by simp [onePLayer, LayerPos.positions, List.range_succ]⟩
  nonneg := by norm_num
  shapes := by simp
  dims := by simp [onePLayer]
  batches_ne := by simp
  batch := by simp
  pos := by simp [roundCfg]
  numbers := by
    intro l hl
    obtain rfl : l = onePLayer := by simpa using hl
    exact ⟨by decide, binary_natCast 23 1 (by norm_num), binary_natCast 23 1 (by norm_num)⟩
  inputs := by
    intro l hl _
    exact takenExact_inputs _ [[oneDatum]]
  grads := by
    intro _ l hl
    obtain rfl : l = onePLayer := by simpa using hl
    intro b hb d hd k hk s _ o _
    obtain rfl : b = [takenExact oneDatum] := by simpa using hb
    obtain rfl : d = takenExact oneDatum := by simpa using hd
    have hk0 : k = 0 := Nat.lt_one_iff.mp hk
    subst hk0
    simp [Within, outputGrad, roundCfg, cotangent, takenExact, cotScale]
  inputError := by
    intro l hl _
    obtain rfl : l = onePLayer := by simpa using hl
    simp [inputAccuracy, inputRowRoundings, rowCount, roundCfg, onePLayer, PLayer.klayer, binaryFloat]
    norm_num
  gradError := by
    intro _ l hl
    obtain rfl : l = onePLayer := by simpa using hl
    simp [gradAccuracy, gradRowRoundings, rowCount, numPasses, roundCfg, onePLayer, PLayer.klayer, binaryFloat]
    norm_num

example (σ : FlSum (binaryFloat 23)) (la : LinAlg) (hla : la.Correct) (dt : FloatType) :
    ∃ E E', Represents (KInvState.op oneWorld la dt [[1, 1]] ⟨oneState, ⟨.value 1, false, 0, false, true, true⟩, []⟩) E ∧
      Represents (KInvState.op oneWorld la dt [[1, 1]] ⟨oneStateFl σ, ⟨.value 1, false, 0, false, true, true⟩, []⟩) E' ∧
      ∀ g : ℝ, |E' 0 0 * g - E 0 0 * g| ≤ 1 / 99 * |E 0 0 * g| := by
  have hM : IsKron (kfacBlocks roundCfg.sep [[1, 1]] ([onePLayer].map fun l => (l.boundLayer roundCfg [takenExact oneDatum]).damped 1 1))
      fun _ _ => (4 : ℝ) := by
    have hb := oneBound onePLayer (by simp)
    rintro ⟨⟨i, hi⟩, a, b⟩ ⟨⟨j, hj⟩, c, d⟩
    obtain rfl : i = 0 := by simpa [kfacBlocks, Layer.blocks, Layer.damped, PLayer.boundLayer, onePLayer] using hi
    obtain rfl : j = 0 := by simpa [kfacBlocks, Layer.blocks, Layer.damped, PLayer.boundLayer, onePLayer] using hj
    have ha : (a : Nat) = 0 := Nat.lt_one_iff.mp a.2
    have hb' : (b : Nat) = 0 := Nat.lt_one_iff.mp b.2
    have hc : (c : Nat) = 0 := Nat.lt_one_iff.mp c.2
    have hd : (d : Nat) = 0 := Nat.lt_one_iff.mp d.2
    show (4 : ℝ) = ((onePLayer.boundLayer roundCfg [takenExact oneDatum]).B.mat a c + if (a : Nat) = c then 1 else 0) *
      ((onePLayer.boundLayer roundCfg [takenExact oneDatum]).A.mat d b + if (d : Nat) = b then 1 else 0)
    rw [ha, hb', hc, hd, hb.1, hb.2]
    norm_num
  obtain ⟨E, E', h1, h2, h3⟩ := kfacInverse_rounding (binaryFloat 52) σ [[1, 1]] [onePLayer] (by simp) [[takenExact oneDatum]] oneWorld oneState
    (oneStateFl σ) ⟨rfl, rfl, rfl, rfl, rfl, rfl, rfl, rfl⟩ oneRun rfl rfl rfl rfl rfl la hla dt ⟨.value 1, false, 0, false, true, true⟩ rfl rfl 1 1
    (.inr ⟨rfl, rfl⟩) one_pos one_pos (by
      intro l hl _
      have hb := (oneBound l hl).1
      obtain rfl : l = onePLayer := by simpa using hl
      show 1 / 1000 * (∑ i ∈ Finset.range 1, (onePLayer.boundLayer roundCfg [takenExact oneDatum]).A.mat i i) < (1 : ℝ)
      rw [Finset.sum_range_one, hb]
      norm_num) (by
      intro l hl
      have hb := (oneBound l hl).2
      obtain rfl : l = onePLayer := by simpa using hl
      show 1 / 1000 * (∑ i ∈ Finset.range 1, (onePLayer.boundLayer roundCfg [takenExact oneDatum]).B.mat i i) < (1 : ℝ)
      rw [Finset.sum_range_one, hb]
      norm_num) 1 one_pos (by norm_num) (fun _ _ _ => le_rfl) _ hM (1 / 100) (by norm_num) (by norm_num) (by norm_num)
  refine ⟨E, E', h1, h2, fun g => ?_⟩
  have := h3 fun _ => g
  simp only [List.map_cons, List.map_nil, List.prod_cons, List.prod_nil, List.sum_cons, List.sum_nil, mul_one, add_zero, Finset.sum_range_one] at this
  have h4 : (99 / 100 * (E' 0 0 * g - E 0 0 * g)) ^ 2 ≤ (1 / 100 * |E 0 0 * g|) ^ 2 := by
    rw [mul_pow, mul_pow, sq_abs]
    norm_num at this ⊢
    exact this
  have h5 := abs_le_of_sq_le_sq h4 (by positivity)
  rw [abs_mul, abs_of_pos (by norm_num : (0 : ℝ) < 99 / 100)] at h5
  linarith

end Curvlinops
