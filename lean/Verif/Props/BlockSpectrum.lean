import Verif.Props.EigenOrder
import Verif.Props.Blocks
import Mathlib.Analysis.Convex.SpecificFunctions.Basic
import Mathlib.Analysis.Convex.SpecificFunctions.Deriv

/-!
# C125: what `block_sizes` keeps of the eigenvalues of the Hessian
-/

namespace Curvlinops

/-! ### Averages of eigenvalues -/

section average

variable {N : Nat}

/-- Entries of different groups replaced by zero. -/
theorem group_nonneg (g : Fin N → Nat) (a : Fin N → ℝ) : 0 ≤ ∑ r, ∑ s, if g r = g s then a r * a s else 0 := by
  have h : ∑ r, ∑ s, (if g r = g s then a r * a s else 0)
      = ∑ b ∈ Finset.univ.image g, (∑ r, if g r = b then a r else 0) ^ 2 := by
    have h1 : ∀ b, (∑ r, if g r = b then a r else 0) ^ 2 = ∑ r, ∑ s, if g r = b then (if g s = b then a r * a s else 0) else 0 := by
      intro b
      rw [sq, Finset.sum_mul_sum]
      refine Finset.sum_congr rfl fun r _ => Finset.sum_congr rfl fun s _ => ?_
      split_ifs <;> simp
    simp only [h1]
    symm
    rw [Finset.sum_comm]
    refine Finset.sum_congr rfl fun r _ => ?_
    rw [Finset.sum_comm]
    refine Finset.sum_congr rfl fun s _ => ?_
    rw [Finset.sum_eq_single_of_mem (g r) (Finset.mem_image_of_mem g (Finset.mem_univ r)) fun b _ hb => if_neg (Ne.symm hb), if_pos rfl]
    simp only [eq_comm]
  rw [h]
  exact Finset.sum_nonneg fun b _ => sq_nonneg _

/-- The eigenvalues of the block-diagonal part of a symmetric matrix are averages of the eigenvalues of the matrix, with doubly stochastic
weights. -/
theorem HasSpectrum.average {M M' : Mat ℝ} (g : Fin N → Nat) (hg : ∀ r s : Fin N, M' r s = if g r = g s then M r s else 0)
    {vals vals' : List ℝ} (h : HasSpectrum N M vals) (hs : Decreasing vals) (h' : HasSpectrum N M' vals') (hs' : Decreasing vals') :
    ∃ (lam mu : Fin N → ℝ) (S : Matrix (Fin N) (Fin N) ℝ), S ∈ doublyStochastic ℝ (Fin N) ∧ Antitone lam ∧ Antitone mu ∧
      vals = List.ofFn lam ∧ vals' = List.ofFn mu ∧ ∀ p, mu p = ∑ p', S p p' * lam p' := by
  obtain ⟨lam, q, hq, he, hl, rfl⟩ := h.sorted hs
  obtain ⟨mu, u, hu, hf, hm, rfl⟩ := h'.sorted hs'
  let S : Matrix (Fin N) (Fin N) ℝ := Matrix.of fun p p' => ∑ r, ∑ s, if g r = g s then u p r * q p' r * (u p s * q p' s) else 0
  have hrow : ∀ (u q : Fin N → Fin N → ℝ) (c : Fin N → ℝ) (p : Fin N),
      ∑ p', (∑ r, ∑ s, if g r = g s then u p r * q p' r * (u p s * q p' s) else 0) * c p'
        = ∑ r, ∑ s, if g r = g s then u p r * u p s * ∑ p', q p' r * c p' * q p' s else 0 := by
    intro u q c p
    simp only [Finset.sum_mul]
    rw [Finset.sum_comm]
    refine Finset.sum_congr rfl fun r _ => ?_
    rw [Finset.sum_comm]
    refine Finset.sum_congr rfl fun s _ => ?_
    split_ifs
    · rw [Finset.mul_sum]
      exact Finset.sum_congr rfl fun p' _ => by ring
    · simp
  have hone : ∀ (u q : Fin N → Fin N → ℝ), (∀ p p', ∑ r, u p r * u p' r = if p = p' then 1 else 0) →
      (∀ p p', ∑ r, q p r * q p' r = if p = p' then 1 else 0) → ∀ p,
      ∑ p', (∑ r, ∑ s, if g r = g s then u p r * q p' r * (u p s * q p' s) else 0) = 1 := by
    intro u q hu hq p
    have := hrow u q (fun _ => 1) p
    simp only [mul_one] at this
    rw [this]
    simp only [orthonormal_cols hq]
    have h1 : ∀ r s : Fin N, (if g r = g s then u p r * u p s * (if r = s then 1 else 0) else 0) = if r = s then u p r * u p s else 0 := by
      intro r s
      by_cases h : r = s
      · simp [h]
      · simp [h]
    simp only [h1, Finset.sum_ite_eq, Finset.mem_univ, if_true]
    rw [hu, if_pos rfl]
  refine ⟨lam, mu, S, ?_, hl, hm, rfl, rfl, fun p => ?_⟩
  · rw [mem_doublyStochastic_iff_sum]
    refine ⟨fun p p' => group_nonneg g fun r => u p r * q p' r, hone u q hu hq, fun p' => ?_⟩
    rw [← hone q u hq hu p']
    refine Finset.sum_congr rfl fun p _ => ?_
    simp only [S, Matrix.of_apply]
    refine Finset.sum_congr rfl fun r _ => Finset.sum_congr rfl fun s _ => ?_
    split_ifs
    · ring
    · rfl
  · simp only [S, Matrix.of_apply]
    rw [hrow u q lam p]
    simp only [← spectral_entries hq he]
    have h1 : ∀ r s : Fin N, (if g r = g s then u p r * u p s * M r s else 0) = u p r * (M' r s * u p s) := by
      intro r s
      rw [hg]
      split_ifs
      · ring
      · ring
    simp only [h1, ← Finset.mul_sum, hf]
    have h2 := hu p p
    rw [if_pos rfl] at h2
    calc mu p = mu p * ∑ r, u p r * u p r := by rw [h2, mul_one]
      _ = ∑ r, u p r * (mu p * u p r) := by
        rw [Finset.mul_sum]
        exact Finset.sum_congr rfl fun r _ => by ring

variable {lam mu : Fin N → ℝ} {S : Matrix (Fin N) (Fin N) ℝ}

theorem average_convex (hS : S ∈ doublyStochastic ℝ (Fin N)) (hmu : ∀ p, mu p = ∑ p', S p p' * lam p') {s : Set ℝ} {f : ℝ → ℝ}
    (hf : ConvexOn ℝ s f) (hl : ∀ p, lam p ∈ s) : (∀ p, mu p ∈ s) ∧ ∑ p, f (mu p) ≤ ∑ p, f (lam p) := by
  rw [mem_doublyStochastic_iff_sum] at hS
  obtain ⟨h0, h1, h2⟩ := hS
  refine ⟨fun p => ?_, ?_⟩
  · rw [hmu]
    exact hf.1.sum_mem (fun p' _ => h0 p p') (h1 p) fun p' _ => hl p'
  · calc ∑ p, f (mu p) ≤ ∑ p, ∑ p', S p p' * f (lam p') := by
          refine Finset.sum_le_sum fun p _ => ?_
          rw [hmu]
          exact hf.map_sum_le (fun p' _ => h0 p p') (h1 p) fun p' _ => hl p'
      _ = ∑ p', f (lam p') := by
          rw [Finset.sum_comm]
          refine Finset.sum_congr rfl fun p' _ => ?_
          rw [← Finset.sum_mul, h2, one_mul]

theorem average_sum (hS : S ∈ doublyStochastic ℝ (Fin N)) (hmu : ∀ p, mu p = ∑ p', S p p' * lam p') : ∑ p, mu p = ∑ p, lam p := by
  rw [mem_doublyStochastic_iff_sum] at hS
  simp only [hmu]
  rw [Finset.sum_comm]
  exact Finset.sum_congr rfl fun p' _ => by rw [← Finset.sum_mul, hS.2.2, one_mul]

theorem average_largest (hS : S ∈ doublyStochastic ℝ (Fin N)) (hmu : ∀ p, mu p = ∑ p', S p p' * lam p') (hl : Antitone lam) (k : Nat) :
    ∑ p : Fin N, (if p.1 < k then mu p else 0) ≤ ∑ p : Fin N, if p.1 < k then lam p else 0 := by
  have ha : Antitone fun p : Fin N => if p.1 < k then (1 : ℝ) else 0 := by
    intro a b hab
    have : a.1 ≤ b.1 := hab
    dsimp only
    split_ifs
    · exact le_rfl
    · omega
    · exact zero_le_one
    · exact le_rfl
  have := coupling_le ha hl S hS
  refine le_of_eq_of_le ?_ (le_of_le_of_eq this ?_)
  · refine Finset.sum_congr rfl fun p _ => ?_
    rw [hmu]
    split_ifs <;> simp
  · exact Finset.sum_congr rfl fun p _ => by split_ifs <;> simp

theorem take_ofFn_sum (k : Nat) (lam : Fin N → ℝ) : ((List.ofFn lam).take k).sum = ∑ p : Fin N, if p.1 < k then lam p else 0 := by
  induction N generalizing k with
  | zero => simp
  | succ N ih =>
    rcases k with _ | k
    · simp
    · rw [List.ofFn_succ, List.take_succ_cons, List.sum_cons, ih, Fin.sum_univ_succ]
      simp

end average

/-! ### Groups of groups -/

theorem blockIndex_append : ∀ (c ds : List Nat) (r : Nat),
    blockIndex (c ++ ds) r = if r < c.sum then blockIndex c r else c.length + blockIndex ds (r - c.sum)
  | [], ds, r => by simp
  | d :: c, ds, r => by
    have hs : (d :: c).sum = d + c.sum := List.sum_cons
    rw [hs, List.cons_append, blockIndex, blockIndex, blockIndex_append c ds, List.length_cons, Nat.sub_sub]
    split_ifs <;> omega

theorem blockIndex_lt : ∀ (c : List Nat) (r : Nat), r < c.sum → blockIndex c r < c.length
  | [], r, h => by simp at h
  | d :: c, r, h => by
    simp only [blockIndex, List.length_cons]
    by_cases h' : r < d
    · rw [if_pos h']
      omega
    · rw [if_neg h']
      have := blockIndex_lt c (r - d) (by rw [List.sum_cons] at h; omega)
      omega

/-- Places in the same part of the finer division are in the same part of the coarser division. -/
theorem blockIndex_coarse : ∀ (cs : List (List Nat)) (r s : Nat), r < cs.flatten.sum → s < cs.flatten.sum →
    blockIndex cs.flatten r = blockIndex cs.flatten s → blockIndex (cs.map List.sum) r = blockIndex (cs.map List.sum) s
  | [], r, s, hr, _, _ => by simp at hr
  | c :: cs, r, s, hr, hs, h => by
    simp only [List.flatten_cons, blockIndex_append, List.sum_append] at hr hs h
    simp only [List.map_cons, blockIndex]
    by_cases h1 : r < c.sum
    · have := blockIndex_lt c r h1
      by_cases h2 : s < c.sum
      · rw [if_pos h1, if_pos h2]
      · rw [if_pos h1, if_neg h2] at h
        omega
    · by_cases h2 : s < c.sum
      · have := blockIndex_lt c s h2
        rw [if_neg h1, if_pos h2] at h
        omega
      · rw [if_neg h1, if_neg h2] at h ⊢
        rw [blockIndex_coarse cs (r - c.sum) (s - c.sum) (by omega) (by omega) (by omega)]

theorem total_flatten (p : List (List (List Nat))) : total p.flatten = (p.map total).sum := by
  induction p with
  | nil => rfl
  | cons q p ih =>
    rw [List.flatten_cons, List.map_cons, List.sum_cons, ← ih]
    simp [total]

/-! ### The Hessian operator -/

section hessian

variable {P O : Nat} {shapes : List (List Nat)} {red : Reduction} {θ : Fin P → ℝ} {batches : List (List (NetDatum P O))}

/-- The operator `HessianLinearOperator(…, block_sizes=[len(p) for p in parts])` (curvlinops/hessian.py:44-83,
curvlinops/_torch_base.py:469-478): `block_sizes` divides the parameters into the groups `parts`. -/
noncomputable abbrev groupHessianOp (shapes : List (List Nat)) (parts : List (List (List Nat))) (red : Reduction) (θ : Fin P → ℝ)
    (batches : List (List (NetDatum P O))) : LinOp ℝ :=
  curvatureOp shapes red (inferNData List.length batches none) List.length
    (netHessianBatch shapes (parts.map fun p => (p.length : Int)) red θ) batches

theorem groupHessian_represents (h : HessianSetting shapes red θ batches) {parts : List (List (List Nat))}
    (hparts : parts.flatten = shapes) (hne : ∀ p ∈ parts, p ≠ []) :
    Represents (groupHessianOp shapes parts red θ batches)
      (blockDiagonal (parts.map total) (natMat (hess (empiricalRisk red batches.flatten) θ))) :=
  netHessianOp_blocks shapes h.dim h.params (parts.map fun p => (p.length : Int))
    (fun s hs => by
      obtain ⟨p, hp, rfl⟩ := List.mem_map.mp hs
      have := List.length_pos_of_ne_nil (hne p hp)
      omega)
    (by
      rw [← hparts, List.length_flatten, sum_lengths])
    parts ⟨rfl, hparts⟩ red h.reduction θ batches h.nonempty h.smooth

theorem groupHessian_nrows (parts : List (List (List Nat))) : (groupHessianOp shapes parts red θ batches).nrows = total shapes := by
  rw [LinOp.nrows, LinOp.outFlat, curvatureOp_outShape]
  rfl

theorem groupHessian_ncols (parts : List (List (List Nat))) : (groupHessianOp shapes parts red θ batches).ncols = total shapes := by
  rw [LinOp.ncols, LinOp.inFlat, curvatureOp_inShape]
  rfl

/-- For all `block_sizes`, the operator has eigenvalues. -/
theorem groupHessian_hasEigenvalues (h : HessianSetting shapes red θ batches) {parts : List (List (List Nat))}
    (hparts : parts.flatten = shapes) (hne : ∀ p ∈ parts, p ≠ []) : ∃ vals, (groupHessianOp shapes parts red θ batches).HasEigenvalues vals :=
  hasEigenvalues_exists (groupHessian_represents h hparts hne) fun r _ c _ => by
    unfold blockDiagonal
    rw [netHessian_symm red θ batches.flatten h.smooth r c]
    simp only [eq_comm (a := blockIndex _ r)]

theorem LinOp.HasEigenvalues.of {op : LinOp ℝ} {vals : List ℝ} (h : op.HasEigenvalues vals) {M : Mat ℝ} (hM : Represents op M)
    (hsq : op.ncols = op.nrows) : HasSpectrum op.nrows M vals ∧ Decreasing vals := by
  obtain ⟨M', hM', h1, h2⟩ := h
  exact ⟨h1.congr fun r hr c hc => represents_unique op M' M hM' hM r c hr (hsq ▸ hc), h2⟩

/-- **C125**: let one value of `block_sizes` divide the parameters into the groups `groups.map List.flatten`, and another one divide these
groups further, into `groups.flatten`. The eigenvalues of the second operator have the same sum, the sums of the `k` largest ones are at
most as large, they lie in every interval that contains the eigenvalues of the first operator, and the sum of a convex function is at most
as large. -/
theorem hessian_group_eigenvalues (h : HessianSetting shapes red θ batches) (groups : List (List (List (List Nat))))
    (hg : groups.flatten.flatten = shapes) (hne : ∀ p ∈ groups.flatten, p ≠ []) (hne' : ∀ q ∈ groups, q ≠ []) {vals vals' : List ℝ}
    (hv : (groupHessianOp shapes (groups.map List.flatten) red θ batches).HasEigenvalues vals)
    (hv' : (groupHessianOp shapes groups.flatten red θ batches).HasEigenvalues vals') :
    vals'.length = vals.length ∧ vals'.sum = vals.sum ∧ (∀ k, (vals'.take k).sum ≤ (vals.take k).sum) ∧
    ∀ (s : Set ℝ) (f : ℝ → ℝ), ConvexOn ℝ s f → (∀ x ∈ vals, x ∈ s) → (∀ x ∈ vals', x ∈ s) ∧ (vals'.map f).sum ≤ (vals.map f).sum := by
  have hne2 : ∀ p ∈ groups.map List.flatten, p ≠ [] := by
    intro p hp
    obtain ⟨q, hq, rfl⟩ := List.mem_map.mp hp
    obtain ⟨a, l, rfl⟩ := List.exists_cons_of_ne_nil (hne' q hq)
    have := hne a (List.mem_flatten_of_mem hq (by simp))
    simp [this]
  obtain ⟨h1, h2⟩ := hv.of (groupHessian_represents h (by rw [← List.flatten_flatten, hg]) hne2)
    (by rw [groupHessian_nrows, groupHessian_ncols])
  obtain ⟨h3, h4⟩ := hv'.of (groupHessian_represents h hg hne) (by rw [groupHessian_nrows, groupHessian_ncols])
  rw [groupHessian_nrows] at h1 h3
  have hcs : (groups.map (List.map total)).flatten = groups.flatten.map total := by rw [List.map_flatten]
  have hcs' : (groups.map (List.map total)).map List.sum = (groups.map List.flatten).map total := by
    simp only [List.map_map]
    exact List.map_congr_left fun q _ => (total_flatten q).symm
  have hsum : (groups.flatten.map total).sum = total shapes := by rw [← total_flatten, hg]
  obtain ⟨lam, mu, S, hS, hl, -, rfl, rfl, hmu⟩ := HasSpectrum.average (fun r => blockIndex (groups.flatten.map total) r)
    (fun r s => by
      have := blockIndex_coarse (groups.map (List.map total)) r s (by rw [hcs, hsum]; exact r.2) (by rw [hcs, hsum]; exact s.2)
      rw [hcs, hcs'] at this
      simp only [blockDiagonal]
      by_cases e : blockIndex (groups.flatten.map total) r = blockIndex (groups.flatten.map total) s
      · rw [if_pos e, if_pos e, if_pos (this e)]
      · rw [if_neg e, if_neg e]) h1 h2 h3 h4
  refine ⟨by simp, ?_, fun k => ?_, fun s f hf hin => ?_⟩
  · rw [List.sum_ofFn, List.sum_ofFn]
    exact average_sum hS hmu
  · rw [take_ofFn_sum, take_ofFn_sum]
    exact average_largest hS hmu hl k
  · obtain ⟨k1, k2⟩ := average_convex hS hmu hf fun p => hin _ (by simp [List.mem_ofFn])
    refine ⟨fun x hx => ?_, ?_⟩
    · obtain ⟨p, rfl⟩ := (List.mem_ofFn' _ _).mp hx
      exact k1 p
    · rw [sum_ofFn_map, sum_ofFn_map]
      exact k2

theorem blockDiagonal_single_all (h : HessianSetting shapes red θ batches) (M : Mat ℝ) (r c : Fin P) :
    blockDiagonal ([shapes].map total) M r c = M r c := by
  simp only [blockDiagonal, List.map_cons, List.map_nil, blockIndex, h.dim, r.2, c.2, if_true]

theorem HasSpectrum.det_le {vals vals' : List ℝ}
    (hf : ∀ (s : Set ℝ) (f : ℝ → ℝ), ConvexOn ℝ s f → (∀ x ∈ vals, x ∈ s) → (∀ x ∈ vals', x ∈ s) ∧ (vals'.map f).sum ≤ (vals.map f).sum)
    (h0 : ∀ x ∈ vals, 0 ≤ x) : vals.prod ≤ vals'.prod := by
  have hz := (hf (Set.Ici 0) (fun _ => 0) (convexOn_const 0 (convex_Ici 0)) h0).1
  by_cases hp : ∀ x ∈ vals, 0 < x
  · obtain ⟨k1, k2⟩ := hf (Set.Ioi 0) (fun x => -Real.log x) strictConcaveOn_log_Ioi.concaveOn.neg hp
    have key : ∀ l : List ℝ, (∀ x ∈ l, 0 < x) → 0 < l.prod ∧ (l.map fun x => -Real.log x).sum = -Real.log l.prod := by
      intro l
      induction l with
      | nil => simp
      | cons x l ih =>
        intro hl
        obtain ⟨i1, i2⟩ := ih fun y hy => hl y (by simp [hy])
        have hx := hl x (by simp)
        refine ⟨by rw [List.prod_cons]; exact mul_pos hx i1, ?_⟩
        rw [List.map_cons, List.sum_cons, i2, List.prod_cons, Real.log_mul hx.ne' i1.ne']
        ring
    obtain ⟨a1, a2⟩ := key vals hp
    obtain ⟨b1, b2⟩ := key vals' k1
    rw [a2, b2, neg_le_neg_iff] at k2
    exact (Real.log_le_log_iff a1 b1).mp k2
  · push Not at hp
    obtain ⟨x, hx, hx0⟩ := hp
    obtain rfl : x = 0 := le_antisymm hx0 (h0 x hx)
    rw [List.prod_eq_zero hx]
    exact List.prod_nonneg hz

/-- **C125** (all parameters against groups): without `block_sizes`, `vals` are the eigenvalues of the Hessian. The eigenvalues `vals'` with
`block_sizes` lie between the smallest and the largest one. They are closer to zero: the sum of their squares is smaller, by the sum of the
squares of the entries set to zero. If the Hessian is positive semi-definite then so is the block-diagonal matrix, and the determinant is
at least as large; if it is positive definite, then the trace of the inverse is at most as large. -/
theorem hessian_block_eigenvalues (h : HessianSetting shapes red θ batches) (parts : List (List (List Nat))) (hparts : parts.flatten = shapes)
    (hne : ∀ p ∈ parts, p ≠ []) {vals vals' : List ℝ} (hv : (groupHessianOp shapes [shapes] red θ batches).HasEigenvalues vals)
    (hv' : (groupHessianOp shapes parts red θ batches).HasEigenvalues vals') :
    vals'.sum = vals.sum ∧ (∀ a b, (∀ x ∈ vals, a ≤ x ∧ x ≤ b) → ∀ x ∈ vals', a ≤ x ∧ x ≤ b) ∧
    (vals.map (· ^ 2)).sum - (vals'.map (· ^ 2)).sum = (∑ r : Fin P, ∑ c : Fin P,
      if blockIndex (parts.map total) r = blockIndex (parts.map total) c then 0 else hess (empiricalRisk red batches.flatten) θ r c ^ 2) ∧
    ((∀ x ∈ vals, 0 ≤ x) → (∀ x ∈ vals', 0 ≤ x) ∧ vals.prod ≤ vals'.prod) ∧
    ((∀ x ∈ vals, 0 < x) → (∀ x ∈ vals', 0 < x) ∧ (vals'.map (·⁻¹)).sum ≤ (vals.map (·⁻¹)).sum) := by
  have hp0 : parts ≠ [] := by
    rintro rfl
    exact h.params hparts.symm
  obtain ⟨-, h1, -, hf⟩ := hessian_group_eigenvalues h [parts] (by simpa using hparts) (by simpa using hne) (by simpa using hp0)
    (by simpa [hparts] using hv) (by simpa using hv')
  refine ⟨h1, fun a b hx => (hf (Set.Icc a b) (fun _ => 0) (convexOn_const 0 (convex_Icc a b)) hx).1, ?_, fun hx => ?_, fun hx => ?_⟩
  · have h3 := (hv.of (groupHessian_represents h (parts := [shapes]) (by simp) (by simpa using h.params))
      (by rw [groupHessian_nrows, groupHessian_ncols])).1.squares
    have h4 := (hv'.of (groupHessian_represents h hparts hne) (by rw [groupHessian_nrows, groupHessian_ncols])).1.squares
    rw [groupHessian_nrows, h.dim] at h3 h4
    rw [← h3, ← h4, matSquares, matSquares, ← Finset.sum_sub_distrib, Finset.sum_range]
    refine Finset.sum_congr rfl fun r _ => ?_
    rw [← Finset.sum_sub_distrib, Finset.sum_range]
    refine Finset.sum_congr rfl fun c _ => ?_
    rw [blockDiagonal_single_all h]
    simp only [blockDiagonal, natMat, r.2, c.2, and_self, dif_pos]
    split_ifs <;> simp
  · exact ⟨(hf (Set.Ici 0) (fun _ => 0) (convexOn_const 0 (convex_Ici 0)) hx).1, HasSpectrum.det_le hf hx⟩
  · refine hf (Set.Ioi 0) _ ?_ hx
    have := convexOn_zpow (𝕜 := ℝ) (-1)
    simpa using this

end hessian

/-- The function `θ₀ θ₁` of two parameters. -/
def bilinearDatum : NetDatum 2 1 := ⟨fun θ _ => θ 0 * θ 1, fun o => o 0⟩

/-- The Hessian of `θ₀ θ₁` has the eigenvalues 1 and -1, and `block_sizes=[1, 1]` leaves the zero matrix: the sum is the same, and the sum of
squares decreases by 2. -/
example (θ : Fin 2 → ℝ) : ∃ vals vals', (groupHessianOp [[1], [1]] [[[1], [1]]] .sum θ [[bilinearDatum]]).HasEigenvalues vals ∧
    (groupHessianOp [[1], [1]] [[[1]], [[1]]] .sum θ [[bilinearDatum]]).HasEigenvalues vals' ∧
    vals'.sum = vals.sum ∧ (vals'.take 1).sum ≤ (vals.take 1).sum ∧ (vals.map (· ^ 2)).sum - (vals'.map (· ^ 2)).sum = 2 := by
  have h : HessianSetting [[1], [1]] .sum θ [[bilinearDatum]] :=
    ⟨rfl, by simp, Or.inr rfl, by simp, by
      have : ContDiffAt ℝ 2 (fun θ => bilinearDatum.loss (bilinearDatum.f θ)) θ := by
        unfold bilinearDatum
        fun_prop
      simpa using this⟩
  obtain ⟨vals, hv⟩ := groupHessian_hasEigenvalues h (parts := [[[1], [1]]]) rfl (by simp)
  obtain ⟨vals', hv'⟩ := groupHessian_hasEigenvalues h (parts := [[[1]], [[1]]]) rfl (by simp)
  obtain ⟨h1, -, h3, -⟩ := hessian_block_eigenvalues h [[[1]], [[1]]] rfl (by simp) hv hv'
  obtain ⟨-, -, h2, -⟩ := hessian_group_eigenvalues h [[[[1]], [[1]]]] rfl (by simp) (by simp) hv hv'
  refine ⟨vals, vals', hv, hv', h1, h2 1, h3.trans ?_⟩
  have hr : ∀ y, empiricalRisk .sum [bilinearDatum] y = y 0 * y 1 := by
    intro y
    simp [empiricalRisk, bilinearDatum]
  have e1 : hess (empiricalRisk .sum [bilinearDatum]) θ 0 1 = 1 := by
    simp [hess, pderiv, hr, Function.update]
  have e2 : hess (empiricalRisk .sum [bilinearDatum]) θ 1 0 = 1 := by
    simp [hess, pderiv, hr, Function.update]
  simp [Fin.sum_univ_two, blockIndex, total, e1, e2]
  norm_num

end Curvlinops
