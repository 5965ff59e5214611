import Verif.Lemmas.Subsampling
import Verif.Props.Scaling
import Verif.Props.KfacExact

/-!
# C108: operators on randomly selected data
-/

namespace Curvlinops

variable {S : Type _} [Fintype S] {m N : Nat}

/-- The products of `op` are `w` times the mean of the products of the `ops`. -/
def IsMean (w : ℝ) (ops : S → LinOp ℝ) (op : LinOp ℝ) : Prop :=
  ∀ K M, HasShapes M op.inShape K → ∃ (Y : List (Tensor ℝ)) (Ys : S → List (Tensor ℝ)), (op.matmat M).1 = .ok Y ∧ HasShapes Y op.outShape K ∧
    (∀ s, ((ops s).matmat M).1 = .ok (Ys s) ∧ HasShapes (Ys s) op.outShape K) ∧
    ∀ p, (flatData Y).getD p 0 = w * outcomeMean fun s => (flatData (Ys s)).getD p 0

/-! ## Entries of products -/

/-- What a datum contributes to an entry of the product with the matrix that has the entries `x` and `K` columns. -/
noncomputable def contribution {D : Type _} (n : Nat) (a : D → Mat ℝ) (K : Nat) (x : List ℝ) (p : Nat) (d : D) : ℝ :=
  if p < n * K then ∑ c ∈ Finset.range n, a d (p / K) c * x.getD (c * K + p % K) 0 else 0

theorem list_ofFn_perm_sum {D : Type _} {q : Nat} {l : List D} {e : Fin q → D} (h : l.Perm (List.ofFn e)) (v : D → ℝ) :
    (l.map v).sum = ∑ i, v (e i) := by
  rw [(h.map v).sum_eq, List.map_ofFn, List.sum_ofFn]
  rfl

theorem perm_ofFn_getElem {D : Type _} (l : List D) : l.Perm (List.ofFn fun i : Fin l.length => l[i]) :=
  List.Perm.of_eq (List.ofFn_getElem (xs := l)).symm

/-- Entries of a product with an operator on the data `e`. -/
theorem product_entries {D : Type _} (shapes : List (List Nat)) (red : Reduction) (hred : red = .mean ∨ red = .sum) (a : D → Mat ℝ)
    (f : List D → List (Tensor ℝ) → Py (List (Tensor ℝ))) (batches : List (List D)) (hne : ∀ b ∈ batches, b ≠ [])
    (hf : ∀ b ∈ batches, BatchRepresents shapes (f b) (batchMatrix red a b)) {q : Nat} {e : Fin q → D}
    (he : batches.flatten.Perm (List.ofFn e)) {K : Nat} {M : List (Tensor ℝ)} (hM : HasShapes M shapes K) :
    ∃ Y, ((curvatureOp shapes red (inferNData List.length batches none) List.length f batches).matmat M).1 = .ok Y ∧
      HasShapes Y shapes K ∧ ∀ p, (flatData Y).getD p 0 =
        (if red = .mean then (q : ℝ)⁻¹ else 1) * ∑ i, contribution (total shapes) a K (flatData M) p (e i) := by
  obtain ⟨Y, y1, y2, y3⟩ := curvatureOp_batching shapes red hred a f batches hf hne none (Or.inl rfl) K M hM
  have hn : (curvatureOp shapes red (inferNData List.length batches none) List.length f batches).nrows = total shapes := by
    simp only [LinOp.nrows, LinOp.outFlat, curvatureOp_outShape]; rfl
  have hc : (curvatureOp shapes red (inferNData List.length batches none) List.length f batches).ncols = total shapes := by
    simp only [LinOp.ncols, LinOp.inFlat, curvatureOp_inShape]; rfl
  rw [hn, hc] at y3
  rw [curvatureOp_outShape] at y2
  refine ⟨Y, y1, y2, fun p => ?_⟩
  unfold contribution
  by_cases hp : p < total shapes * K
  · have hK : 0 < K := by
      rcases Nat.eq_zero_or_pos K with h | h
      · rw [h] at hp; simp at hp
      · exact h
    have hr : p / K < total shapes := by rwa [Nat.div_lt_iff_lt_mul hK]
    have e1 := y3.2 _ hr _ (Nat.mod_lt p hK)
    have hi' : p / K * K + p % K = p := by rw [Nat.mul_comm]; exact Nat.div_add_mod p K
    rw [hi'] at e1
    rw [e1]
    simp only [if_pos hp]
    rw [Finset.sum_comm, Finset.mul_sum]
    refine Finset.sum_congr rfl fun c _ => ?_
    unfold riskMatrix
    rw [he.length_eq, List.length_ofFn, list_ofFn_perm_sum he, ← Finset.sum_mul, mul_assoc]
  · simp only [if_neg hp]
    rw [List.getD_eq_getElem?_getD, List.getElem?_eq_none (by rw [y3.1]; omega)]
    simp

section operators

variable {D : Type _} (shapes : List (List Nat)) (a : D → Mat ℝ) (f : List D → List (Tensor ℝ) → Py (List (Tensor ℝ)))
  (ds : Fin N → D) (full : List (List D)) (hfull : full.flatten.Perm (List.ofFn ds)) (hne : ∀ b ∈ full, b ≠ [])
  (pos : S → Fin m → Fin N) (sel : S → List (List D)) (hsel : ∀ s, (sel s).flatten.Perm (List.ofFn fun j => ds (pos s j)))
  (hnes : ∀ s, ∀ b ∈ sel s, b ≠ [])

include hfull hne hsel hnes

/-- **C108** (mean): for data that are selected such that no datum is preferred (with or without repetition, or as a mini-batch of
shuffled data), and split into mini-batches in any way, the operator on the selected data is an unbiased estimate of the operator on all
data; with reduction `sum` after multiplication with `N / m`. -/
theorem selected_unbiased [Nonempty S] (red : Reduction) (hred : red = .mean ∨ red = .sum)
    (hf : ∀ b ≠ [], (∀ d ∈ b, d ∈ Set.range ds) → BatchRepresents shapes (f b) (batchMatrix red a b))
    (hE : Exchangeable pos) (hm : m ≠ 0) :
    IsMean (if red = .mean then 1 else (N : ℝ) / m)
      (fun s => curvatureOp shapes red (inferNData List.length (sel s) none) List.length f (sel s))
      (curvatureOp shapes red (inferNData List.length full none) List.length f full) := by
  have hm' : (m : ℝ) ≠ 0 := by exact_mod_cast hm
  have hN' : (N : ℝ) ≠ 0 := by
    have := (pos (Classical.arbitrary S) ⟨0, Nat.pos_of_ne_zero hm⟩).2
    exact_mod_cast (by omega : N ≠ 0)
  intro K M hM
  have hfb : ∀ (bs : List (List D)) {q : Nat} (e : Fin q → D), bs.flatten.Perm (List.ofFn e) → (∀ i, e i ∈ Set.range ds) →
      (∀ b ∈ bs, b ≠ []) → ∀ b ∈ bs, BatchRepresents shapes (f b) (batchMatrix red a b) := by
    intro bs q e he hr hb b hbm
    refine hf b (hb b hbm) fun d hd => ?_
    have := he.mem_iff.mp (List.mem_flatten_of_mem hbm hd)
    obtain ⟨i, rfl⟩ := (List.mem_ofFn' e d).mp this
    exact hr i
  obtain ⟨Y, y1, y2, y3⟩ := product_entries shapes red hred a f full hne (hfb full ds hfull (fun i => ⟨i, rfl⟩) hne) hfull hM
  choose Ys z1 z2 z3 using fun s => product_entries shapes red hred a f (sel s) (hnes s)
    (hfb (sel s) _ (hsel s) (fun j => ⟨pos s j, rfl⟩) (hnes s)) (hsel s) hM
  refine ⟨Y, Ys, y1, y2, fun s => ⟨z1 s, z2 s⟩, fun p => ?_⟩
  have h := outcomeMean_selected pos hE hm fun n => contribution (total shapes) a K (flatData M) p (ds n)
  simp only [y3 p, fun s => z3 s p]
  rcases hred with rfl | rfl
  · simp only [if_true, one_mul]
    rw [inv_mul_eq_div, ← h]
    unfold selectedMean
    simp only [inv_mul_eq_div]
  · simp only [reduceCtorEq, if_false, one_mul]
    have e : (outcomeMean fun s => ∑ j, contribution (total shapes) a K (flatData M) p (ds (pos s j))) =
        m * outcomeMean (selectedMean pos fun n => contribution (total shapes) a K (flatData M) p (ds n)) := by
      unfold outcomeMean selectedMean
      rw [← Finset.sum_div]
      field_simp
    rw [e, h]
    field_simp

omit [Fintype S] in
/-- Entries of the products, with reduction `mean`. -/
theorem selected_error_aux (hf : ∀ b ≠ [], (∀ d ∈ b, d ∈ Set.range ds) → BatchRepresents shapes (f b) (batchMatrix .mean a b)) {K : Nat}
    {M : List (Tensor ℝ)} (hM : HasShapes M shapes K) :
    ∃ (Y : List (Tensor ℝ)) (Ys : S → List (Tensor ℝ)) (Yn : Fin N → List (Tensor ℝ)) (g : Nat → Fin N → ℝ),
      ((curvatureOp shapes .mean (inferNData List.length full none) List.length f full).matmat M).1 = .ok Y ∧
      (∀ s, ((curvatureOp shapes .mean (inferNData List.length (sel s) none) List.length f (sel s)).matmat M).1 = .ok (Ys s)) ∧
      (∀ n, ((curvatureOp shapes .mean (inferNData List.length [[ds n]] none) List.length f [[ds n]]).matmat M).1 = .ok (Yn n)) ∧
      ∀ p, (flatData Y).getD p 0 = (∑ n, g p n) / N ∧ (∀ s, (flatData (Ys s)).getD p 0 = selectedMean pos (g p) s) ∧
        ∀ n, (flatData (Yn n)).getD p 0 = g p n := by
  have hfb : ∀ (bs : List (List D)) {q : Nat} (e : Fin q → D), bs.flatten.Perm (List.ofFn e) → (∀ i, e i ∈ Set.range ds) →
      (∀ b ∈ bs, b ≠ []) → ∀ b ∈ bs, BatchRepresents shapes (f b) (batchMatrix .mean a b) := by
    intro bs q e he hr hb b hbm
    refine hf b (hb b hbm) fun d hd => ?_
    have := he.mem_iff.mp (List.mem_flatten_of_mem hbm hd)
    obtain ⟨i, rfl⟩ := (List.mem_ofFn' e d).mp this
    exact hr i
  obtain ⟨Y, y1, y2, y3⟩ := product_entries shapes .mean (Or.inl rfl) a f full hne (hfb full ds hfull (fun i => ⟨i, rfl⟩) hne) hfull hM
  choose Ys z1 z2 z3 using fun s => product_entries shapes .mean (Or.inl rfl) a f (sel s) (hnes s)
    (hfb (sel s) _ (hsel s) (fun j => ⟨pos s j, rfl⟩) (hnes s)) (hsel s) hM
  choose Yn w1 w2 w3 using fun n : Fin N => product_entries shapes .mean (Or.inl rfl) a f [[ds n]] (by simp)
    (e := fun _ : Fin 1 => ds n) (hfb [[ds n]] (fun _ : Fin 1 => ds n) (by simp) (fun _ => ⟨n, rfl⟩) (by simp)) (by simp) hM
  refine ⟨Y, Ys, Yn, fun p n => contribution (total shapes) a K (flatData M) p (ds n), y1, z1, w1, fun p => ⟨?_, ?_, ?_⟩⟩
  · rw [y3 p, if_pos rfl, inv_mul_eq_div]
  · intro s
    rw [z3 s p, if_pos rfl, inv_mul_eq_div]
    rfl
  · intro n
    rw [w3 n p]
    simp

/-- **C108** (variance, without repetition): with reduction `mean`, the mean squared error of every entry of every product with the
operator on `m` selected data is the mean squared deviation of the operators on single data, divided by `m` and multiplied with
`(N - m) / (N - 1)`. -/
theorem selected_variance [Nonempty S] (hf : ∀ b ≠ [], (∀ d ∈ b, d ∈ Set.range ds) → BatchRepresents shapes (f b) (batchMatrix .mean a b))
    (hE : Exchangeable pos) (hinj : ∀ s, Function.Injective (pos s)) (hm : m ≠ 0) {K : Nat} {M : List (Tensor ℝ)}
    (hM : HasShapes M shapes K) :
    ∃ (Y : List (Tensor ℝ)) (Ys : S → List (Tensor ℝ)) (Yn : Fin N → List (Tensor ℝ)),
      ((curvatureOp shapes .mean (inferNData List.length full none) List.length f full).matmat M).1 = .ok Y ∧
      (∀ s, ((curvatureOp shapes .mean (inferNData List.length (sel s) none) List.length f (sel s)).matmat M).1 = .ok (Ys s)) ∧
      (∀ n, ((curvatureOp shapes .mean (inferNData List.length [[ds n]] none) List.length f [[ds n]]).matmat M).1 = .ok (Yn n)) ∧
      ∀ p, (outcomeMean fun s => ((flatData (Ys s)).getD p 0 - (flatData Y).getD p 0) ^ 2) =
        (N - m) / (N - 1) * ((∑ n, ((flatData (Yn n)).getD p 0 - (flatData Y).getD p 0) ^ 2) / N / m) := by
  obtain ⟨Y, Ys, Yn, g, h1, h2, h3, h4⟩ := selected_error_aux shapes a f ds full hfull hne pos sel hsel hnes hf hM
  refine ⟨Y, Ys, Yn, h1, h2, h3, fun p => ?_⟩
  obtain ⟨e1, e2, e3⟩ := h4 p
  have := variance_subset pos hE hinj hm (g p) _ e1
  simp only [e2, e3]
  exact this

end operators

/-- **C108** (variance, with repetition): as `selected_variance`, without the factor `(N - m) / (N - 1)`. -/
theorem resampled_variance {D : Type _} (shapes : List (List Nat)) (a : D → Mat ℝ) (f : List D → List (Tensor ℝ) → Py (List (Tensor ℝ)))
    (ds : Fin N → D) (full : List (List D)) (hfull : full.flatten.Perm (List.ofFn ds)) (hne : ∀ b ∈ full, b ≠ [])
    (sel : (Fin m → Fin N) → List (List D)) (hsel : ∀ s, (sel s).flatten.Perm (List.ofFn fun j => ds (s j)))
    (hnes : ∀ s, ∀ b ∈ sel s, b ≠ [])
    (hf : ∀ b ≠ [], (∀ d ∈ b, d ∈ Set.range ds) → BatchRepresents shapes (f b) (batchMatrix .mean a b))
    (hm : m ≠ 0) (hN : N ≠ 0) {K : Nat} {M : List (Tensor ℝ)} (hM : HasShapes M shapes K) :
    ∃ (Y : List (Tensor ℝ)) (Ys : (Fin m → Fin N) → List (Tensor ℝ)) (Yn : Fin N → List (Tensor ℝ)),
      ((curvatureOp shapes .mean (inferNData List.length full none) List.length f full).matmat M).1 = .ok Y ∧
      (∀ s, ((curvatureOp shapes .mean (inferNData List.length (sel s) none) List.length f (sel s)).matmat M).1 = .ok (Ys s)) ∧
      (∀ n, ((curvatureOp shapes .mean (inferNData List.length [[ds n]] none) List.length f [[ds n]]).matmat M).1 = .ok (Yn n)) ∧
      ∀ p, (outcomeMean fun s => ((flatData (Ys s)).getD p 0 - (flatData Y).getD p 0) ^ 2) =
        (∑ n, ((flatData (Yn n)).getD p 0 - (flatData Y).getD p 0) ^ 2) / N / m := by
  obtain ⟨Y, Ys, Yn, g, h1, h2, h3, h4⟩ := selected_error_aux shapes a f ds full hfull hne (fun s j => s j) sel hsel hnes hf hM
  refine ⟨Y, Ys, Yn, h1, h2, h3, fun p => ?_⟩
  obtain ⟨e1, e2, e3⟩ := h4 p
  simp only [e2, e3]
  exact variance_replacement hm hN (g p) _ e1

/-! ## The operators -/

section losses

variable {k : LossKind} {C : Nat} (shapes : List (List Nat)) (hshapes : shapes ≠ []) (T : Nat) (ds : Fin N → List (Term k C))
  (hT : ∀ n, (ds n).length = T) (full : List (List (List (Term k C)))) (hfull : full.flatten.Perm (List.ofFn ds))
  (hne : ∀ b ∈ full, b ≠ []) (pos : S → Fin m → Fin N) (sel : S → List (List (List (Term k C))))
  (hsel : ∀ s, (sel s).flatten.Perm (List.ofFn fun j => ds (pos s j))) (hnes : ∀ s, ∀ b ∈ sel s, b ≠ [])

include hshapes hT hfull hne hsel hnes

/-- **C108** (GGN). -/
theorem ggn_selected_unbiased [Nonempty S] (mean : Bool) (hE : Exchangeable pos) (hm : m ≠ 0) :
    IsMean (if redOf mean = .mean then 1 else (N : ℝ) / m)
      (fun s => curvatureOp shapes (redOf mean) (inferNData List.length (sel s) none) List.length
        (fun b => ggnLossBatch shapes mean b.flatten) (sel s))
      (curvatureOp shapes (redOf mean) (inferNData List.length full none) List.length
        (fun b => ggnLossBatch shapes mean b.flatten) full) :=
  selected_unbiased shapes (datumMatrix mean T lossHessian) _ ds full hfull hne pos sel hsel hnes (redOf mean) (redOf_cases mean)
    (fun b _ hb => ggn_batch shapes hshapes T mean (batches := [b]) (by
      intro b' hb' d hd
      obtain rfl : b' = b := by simpa using hb'
      obtain ⟨n, rfl⟩ := hb d hd
      exact hT n) b (by simp)) hE hm

/-- **C108** (empirical Fisher). -/
theorem ef_selected_unbiased [Nonempty S] (mean : Bool) (hE : Exchangeable pos) (hm : m ≠ 0) :
    IsMean (if redOf mean = .mean then 1 else (N : ℝ) / m)
      (fun s => curvatureOp shapes (redOf mean) (inferNData List.length (sel s) none) List.length
        (fun b => efBatch shapes mean b.flatten) (sel s))
      (curvatureOp shapes (redOf mean) (inferNData List.length full none) List.length
        (fun b => efBatch shapes mean b.flatten) full) :=
  selected_unbiased shapes (datumMatrix mean T lossGradOuter) _ ds full hfull hne pos sel hsel hnes (redOf mean) (redOf_cases mean)
    (fun b _ hb => ef_batch shapes hshapes T mean (batches := [b]) (by
      intro b' hb' d hd
      obtain rfl : b' = b := by simpa using hb'
      obtain ⟨n, rfl⟩ := hb d hd
      exact hT n) b (by simp)) hE hm

end losses

/-- **C108** (Hessian), for all block sizes. -/
theorem hessian_selected_unbiased {P O : Nat} [Nonempty S] (shapes : List (List Nat)) (hshapes : shapes ≠ []) (blockSizes : List Int)
    (hpos : ∀ s ∈ blockSizes, 0 < s) (hsum : blockSizes.sum = shapes.length) (θ : Fin P → ℝ) (ds : Fin N → NetDatum P O)
    (hdiff : ∀ n, ContDiffAt ℝ 2 (fun θ => (ds n).loss ((ds n).f θ)) θ) (full : List (List (NetDatum P O)))
    (hfull : full.flatten.Perm (List.ofFn ds)) (hne : ∀ b ∈ full, b ≠ []) (pos : S → Fin m → Fin N)
    (sel : S → List (List (NetDatum P O))) (hsel : ∀ s, (sel s).flatten.Perm (List.ofFn fun j => ds (pos s j)))
    (hnes : ∀ s, ∀ b ∈ sel s, b ≠ []) (red : Reduction) (hred : red = .mean ∨ red = .sum) (hE : Exchangeable pos) (hm : m ≠ 0) :
    IsMean (if red = .mean then 1 else (N : ℝ) / m)
      (fun s => curvatureOp shapes red (inferNData List.length (sel s) none) List.length (netHessianBatch shapes blockSizes red θ) (sel s))
      (curvatureOp shapes red (inferNData List.length full none) List.length (netHessianBatch shapes blockSizes red θ) full) := by
  obtain ⟨parts, -, hparts⟩ := splitList_isSplit shapes blockSizes (fun s hs => (hpos s hs).le) hsum.symm
  exact selected_unbiased shapes _ _ ds full hfull hne pos sel hsel hnes red hred
    (fun b _ hb => hessian_batch shapes hshapes blockSizes hpos hsum parts hparts θ [b] (by
      intro d hd
      obtain ⟨n, rfl⟩ := hb d (by simpa using hd)
      exact hdiff n) red b (by simp)) hE hm

/-- **C108** (gradient and loss): `gradient_and_loss` on the selected data is unbiased. -/
theorem gradient_selected_unbiased {D : Type _} [Nonempty S] (shapes : List (List Nat)) (red : Reduction) (hred : red = .mean ∨ red = .sum)
    (l : D → ℝ) (g : D → Nat → ℝ) (lg : List D → ℝ × List (Tensor ℝ)) (ds : Fin N → D)
    (hlg : ∀ b ≠ [], (∀ d ∈ b, d ∈ Set.range ds) → (lg b).1 = riskValue red l b ∧ HasVec (lg b).2 shapes ∧
      ∀ r < total shapes, (flatData (lg b).2).getD r 0 = riskValue red (fun d => g d r) b)
    (full : List (List D)) (hfull : full.flatten.Perm (List.ofFn ds)) (hne : ∀ b ∈ full, b ≠ []) (pos : S → Fin m → Fin N)
    (sel : S → List (List D)) (hsel : ∀ s, (sel s).flatten.Perm (List.ofFn fun j => ds (pos s j)))
    (hnes : ∀ s, ∀ b ∈ sel s, b ≠ []) (hE : Exchangeable pos) (hm : m ≠ 0) :
    ∃ (G : List (Tensor ℝ)) (L : ℝ) (Gs : S → List (Tensor ℝ)) (Ls : S → ℝ),
      gradientAndLoss shapes red (inferNData List.length full none) List.length (some lg) full = .ok (G, L) ∧
      (∀ s, gradientAndLoss shapes red (inferNData List.length (sel s) none) List.length (some lg) (sel s) = .ok (Gs s, Ls s)) ∧
      L = (if red = .mean then 1 else (N : ℝ) / m) * outcomeMean Ls ∧
      ∀ r < total shapes, (flatData G).getD r 0 =
        (if red = .mean then 1 else (N : ℝ) / m) * outcomeMean fun s => (flatData (Gs s)).getD r 0 := by
  have hm' : (m : ℝ) ≠ 0 := by exact_mod_cast hm
  have hN' : (N : ℝ) ≠ 0 := by
    have := (pos (Classical.arbitrary S) ⟨0, Nat.pos_of_ne_zero hm⟩).2
    exact_mod_cast (by omega : N ≠ 0)
  have hfb : ∀ (bs : List (List D)) {q : Nat} (e : Fin q → D), bs.flatten.Perm (List.ofFn e) → (∀ i, e i ∈ Set.range ds) →
      (∀ b ∈ bs, b ≠ []) → ∃ G, gradientAndLoss shapes red (inferNData List.length bs none) List.length (some lg) bs =
        .ok (G, (if red = .mean then (q : ℝ)⁻¹ else 1) * ∑ i, l (e i)) ∧
        ∀ r < total shapes, (flatData G).getD r 0 = (if red = .mean then (q : ℝ)⁻¹ else 1) * ∑ i, g (e i) r := by
    intro bs q e he hr hb
    have hmem : ∀ b ∈ bs, ∀ d ∈ b, d ∈ Set.range ds := by
      intro b hbm d hd
      have := he.mem_iff.mp (List.mem_flatten_of_mem hbm hd)
      obtain ⟨i, rfl⟩ := (List.mem_ofFn' e d).mp this
      exact hr i
    have hv : ∀ v : D → ℝ, riskValue red v bs.flatten = (if red = .mean then (q : ℝ)⁻¹ else 1) * ∑ i, v (e i) := by
      intro v
      unfold riskValue
      rw [he.length_eq, List.length_ofFn, list_ofFn_perm_sum he]
    obtain ⟨G, h1, _, h3⟩ := gradientAndLoss_spec shapes red hred l g lg bs hb (fun b hbm => (hlg b (hb b hbm) (hmem b hbm)).1)
      (fun b hbm => (hlg b (hb b hbm) (hmem b hbm)).2.1) (fun b hbm => (hlg b (hb b hbm) (hmem b hbm)).2.2)
    refine ⟨G, by rw [h1, hv], fun r hr => by rw [h3 r hr, hv]⟩
  obtain ⟨G, h1, h2⟩ := hfb full ds hfull (fun i => ⟨i, rfl⟩) hne
  choose Gs k1 k2 using fun s => hfb (sel s) _ (hsel s) (fun j => ⟨pos s j, rfl⟩) (hnes s)
  have key : ∀ v : Fin N → ℝ, (if red = .mean then (N : ℝ)⁻¹ else 1) * ∑ n, v n = (if red = .mean then 1 else (N : ℝ) / m) *
      outcomeMean fun s => (if red = .mean then (m : ℝ)⁻¹ else 1) * ∑ j, v (pos s j) := by
    intro v
    have h := outcomeMean_selected pos hE hm v
    rcases hred with rfl | rfl
    · simp only [if_true, one_mul]
      rw [inv_mul_eq_div, ← h]
      unfold selectedMean
      simp only [inv_mul_eq_div]
    · simp only [reduceCtorEq, if_false, one_mul]
      have e : (outcomeMean fun s => ∑ j, v (pos s j)) = m * outcomeMean (selectedMean pos v) := by
        unfold outcomeMean selectedMean
        rw [← Finset.sum_div]
        field_simp
      rw [e, h]
      field_simp
  refine ⟨G, _, Gs, _, h1, k1, key _, fun r hr => ?_⟩
  rw [h2 r hr, key fun n => g (ds n) r]
  simp only [fun s => k2 s r hr]

/-! ## Averages over the mini-batches of a data loader -/

/-- **C108** (loader): if all mini-batches of a data loader have the same number of data, the operator on all of them is the mean of the
operators on each of them, with reduction `mean`; with reduction `sum` after multiplication with the number of mini-batches (which then
does not need equal sizes). -/
theorem loader_mean {D : Type _} (shapes : List (List Nat)) (a : D → Mat ℝ) (f : List D → List (Tensor ℝ) → Py (List (Tensor ℝ)))
    (red : Reduction) (hred : red = .mean ∨ red = .sum) (batches : List (List D)) (hb : batches ≠ []) (hne : ∀ b ∈ batches, b ≠ [])
    (hf : ∀ b ∈ batches, BatchRepresents shapes (f b) (batchMatrix red a b)) (hsize : red = .mean → ∀ b ∈ batches, b.length = m) :
    IsMean (if red = .mean then 1 else (batches.length : ℝ))
      (fun i : Fin batches.length => curvatureOp shapes red (inferNData List.length [batches[i]] none) List.length f [batches[i]])
      (curvatureOp shapes red (inferNData List.length batches none) List.length f batches) := by
  intro K M hM
  have hL : (batches.length : ℝ) ≠ 0 := by exact_mod_cast (List.length_pos_of_ne_nil hb).ne'
  obtain ⟨Y, y1, y2, y3⟩ := product_entries shapes red hred a f batches hne hf (e := fun i => batches.flatten[i])
    (perm_ofFn_getElem _) hM
  choose Ys z1 z2 z3 using fun i : Fin batches.length => product_entries shapes red hred a f [batches[i]] (by
      intro b h
      obtain rfl : b = batches[i] := by simpa using h
      exact hne _ (List.getElem_mem _)) (by
      intro b h
      obtain rfl : b = batches[i] := by simpa using h
      exact hf _ (List.getElem_mem _)) (e := fun j => batches[i][j]) (by simp) hM
  refine ⟨Y, Ys, y1, y2, fun s => ⟨z1 s, z2 s⟩, fun p => ?_⟩
  simp only [y3 p, fun s => z3 s p]
  have e1 : ∀ (l : List D) (v : D → ℝ), ∑ i : Fin l.length, v l[i] = (l.map v).sum := by
    intro l v
    have := list_ofFn_perm_sum (l := l) (e := fun i : Fin l.length => l[i]) (perm_ofFn_getElem l) v
    exact this.symm
  have e2 : ∀ (v : List D → ℝ), ∑ i : Fin batches.length, v batches[i] = (batches.map v).sum := by
    intro v
    exact (list_ofFn_perm_sum (perm_ofFn_getElem batches) v).symm
  simp only [e1]
  unfold outcomeMean
  rw [e2 fun b => (if red = .mean then (b.length : ℝ)⁻¹ else 1) * (b.map (contribution (total shapes) a K (flatData M) p)).sum,
    sum_map_flatten, Fintype.card_fin]
  rcases hred with rfl | rfl
  · have e3 : batches.flatten.length = batches.length * m := by
      rw [List.length_flatten, List.map_congr_left fun b hbm => hsize rfl b hbm]
      simp
    have e4 : (batches.map fun b => (if Reduction.mean = .mean then (b.length : ℝ)⁻¹ else 1) *
        (b.map (contribution (total shapes) a K (flatData M) p)).sum) =
        batches.map fun b => (m : ℝ)⁻¹ * (b.map (contribution (total shapes) a K (flatData M) p)).sum :=
      List.map_congr_left fun b hbm => by rw [if_pos rfl, hsize rfl b hbm]
    rw [e4, List.sum_map_mul_left, e3]
    simp only [if_true, one_mul]
    push_cast
    rw [mul_inv, mul_comm (batches.length : ℝ)⁻¹, mul_assoc, inv_mul_eq_div]
    ring
  · simp only [reduceCtorEq, if_false, one_mul]
    field_simp

/-! ## KFAC -/

/-- What a datum contributes to the input factor. -/
noncomputable def inputPart (cfg : KfacCfg) (l : KLayer) (i j : Nat) (d : KDatum) : ℝ :=
  match cfg.approx with
  | .expand => (∑ s ∈ Finset.range l.S, specInputVec cfg l d s i * specInputVec cfg l d s j) / l.S
  | .reduce => specMeanInput cfg l d i * specMeanInput cfg l d j

/-- What a datum contributes to the gradient factor. -/
noncomputable def gradPart (cfg : KfacCfg) (l : KLayer) (i j : Nat) (d : KDatum) : ℝ :=
  specGradScale { cfg with N := 1 } * match cfg.approx with
  | .expand => ((specCotangents cfg d).map fun v =>
      ∑ s ∈ Finset.range l.S, specGradVec cfg l d v s i * specGradVec cfg l d v s j).sum
  | .reduce => ((specCotangents cfg d).map fun v =>
      (∑ s ∈ Finset.range l.S, specGradVec cfg l d v s i) * ∑ s ∈ Finset.range l.S, specGradVec cfg l d v s j).sum

theorem specInputFactor_mean (cfg : KfacCfg) (l : KLayer) (n : Nat) (data : List KDatum) (i j : Nat) :
    specInputFactor { cfg with N := n } l data i j = (n : ℝ)⁻¹ * (data.map (inputPart cfg l i j)).sum := by
  unfold specInputFactor inputPart
  cases cfg.approx
  · simp only
    rw [one_div, mul_inv, mul_assoc]
    congr 1
    rw [← List.sum_map_mul_left]
    exact congrArg List.sum (List.map_congr_left fun d _ => by rw [inv_mul_eq_div]; rfl)
  · simp only [one_div]
    rfl

theorem specGradFactor_mean (cfg : KfacCfg) (hf : cfg.fisher ≠ .forwardOnly) (l : KLayer) (n : Nat) (data : List KDatum) (i j : Nat) :
    specGradFactor { cfg with N := n } l data i j = (if cfg.mean then (n : ℝ)⁻¹ else 1) * (data.map (gradPart cfg l i j)).sum := by
  have hs : specGradScale { cfg with N := n } = (if cfg.mean then (n : ℝ)⁻¹ else 1) * specGradScale { cfg with N := 1 } := by
    unfold specGradScale
    cases cfg.mean
    · simp
    · simp only [if_true, Nat.cast_one, one_mul, one_div, mul_inv]
      ring
  obtain ⟨fi, ap, lo, me, mc, N₀, T, C, sep⟩ := cfg
  dsimp only at hs hf ⊢
  unfold specGradFactor gradPart
  cases fi <;> cases ap <;> first
    | exact absurd rfl hf
    | (simp only
       rw [hs, mul_assoc, ← List.sum_map_mul_left]
       rfl)

/-- **C108** (KFAC's factors): the input factor of every layer with a weight, and the gradient factor of every layer are unbiased (with
reduction `sum`, the latter after multiplication with `N / m`, except for `FORWARD_ONLY`). -/
theorem kfac_factors_unbiased [Nonempty S] (cfg : KfacCfg) (hcfg : cfg.N = N) (hT : cfg.T ≠ 0) (hC : cfg.C ≠ 0) (hmc : cfg.mcSamples ≠ 0)
    (layers : List KLayer) (hnd : (layers.map KLayer.name).Nodup) (l : KLayer) (hl : l ∈ layers) (ds : Fin N → KDatum)
    (full : List (List KDatum)) (hfull : full.flatten.Perm (List.ofFn ds)) (pos : S → Fin m → Fin N)
    (sel : S → List (List KDatum)) (hsel : ∀ s, (sel s).flatten.Perm (List.ofFn fun j => ds (pos s j)))
    (hE : Exchangeable pos) (hm : m ≠ 0) :
    (l.pos.has "weight" = true → ∃ (A : Factor ℝ) (As : S → Factor ℝ), (kfacFactors cfg layers full).1.get l.name = some A ∧
      (∀ s, (kfacFactors { cfg with N := m } layers (sel s)).1.get l.name = some (As s)) ∧
      ∀ i j, A.mat i j = outcomeMean fun s => (As s).mat i j) ∧
    ∃ (B : Factor ℝ) (Bs : S → Factor ℝ), (kfacFactors cfg layers full).2.get l.name = some B ∧
      (∀ s, (kfacFactors { cfg with N := m } layers (sel s)).2.get l.name = some (Bs s)) ∧
      ∀ i j, B.mat i j = (if cfg.mean ∨ cfg.fisher = .forwardOnly then 1 else (N : ℝ) / m) * outcomeMean fun s => (Bs s).mat i j := by
  have hm' : (m : ℝ) ≠ 0 := by exact_mod_cast hm
  have hN : N ≠ 0 := by
    have := (pos (Classical.arbitrary S) ⟨0, Nat.pos_of_ne_zero hm⟩).2
    omega
  have hN' : (N : ℝ) ≠ 0 := by exact_mod_cast hN
  have hcfg' : cfg = { cfg with N := N } := by subst hcfg; rfl
  have hfull0 : full ≠ [] := by
    rintro rfl
    have := hfull.length_eq
    simp at this
    exact hN this.symm
  have hsel0 : ∀ s, sel s ≠ [] := by
    intro s h
    have := (hsel s).length_eq
    rw [h] at this
    simp at this
    exact hm this.symm
  refine ⟨fun hw => ?_, ?_⟩
  · refine ⟨_, _, kfac_input_factor cfg layers hnd full hfull0 l hl hw,
      fun s => kfac_input_factor { cfg with N := m } layers hnd (sel s) (hsel0 s) l hl hw, fun i j => ?_⟩
    dsimp only
    rw [hcfg', specInputFactor_mean, list_ofFn_perm_sum hfull, inv_mul_eq_div,
      ← outcomeMean_selected pos hE hm fun n => inputPart cfg l i j (ds n)]
    unfold selectedMean
    congr 1
    funext s
    have := specInputFactor_mean cfg l m (sel s).flatten i j
    rw [list_ofFn_perm_sum (hsel s), inv_mul_eq_div] at this
    exact this.symm
  · refine ⟨_, _, kfac_grad_factor cfg layers hnd full hfull0 hT hC hmc l hl,
      fun s => kfac_grad_factor { cfg with N := m } layers hnd (sel s) (hsel0 s) hT hC hmc l hl, fun i j => ?_⟩
    dsimp only
    by_cases hf : cfg.fisher = .forwardOnly
    · simp only [hf, or_true, if_true, one_mul]
      unfold specGradFactor
      have hc : (Fintype.card S : ℝ) ≠ 0 := by exact_mod_cast Fintype.card_ne_zero
      simp only [hf]
      unfold outcomeMean
      by_cases h : i = j <;> simp [h, hc]
    · have h := outcomeMean_selected pos hE hm fun n => gradPart cfg l i j (ds n)
      have hs : ∀ s, specGradFactor { cfg with N := m } l (sel s).flatten i j =
          (if cfg.mean then (m : ℝ)⁻¹ else 1) * ∑ q, gradPart cfg l i j (ds (pos s q)) := by
        intro s
        rw [specGradFactor_mean cfg hf, list_ofFn_perm_sum (hsel s)]
      have hF := specGradFactor_mean cfg hf l N full.flatten i j
      rw [← hcfg', list_ofFn_perm_sum hfull] at hF
      simp only [hs]
      rw [hF]
      simp only [hf, or_false]
      cases hmean : cfg.mean
      · simp only [Bool.false_eq_true, if_false, one_mul]
        have e : (outcomeMean fun s => ∑ q, gradPart cfg l i j (ds (pos s q))) =
            m * outcomeMean (selectedMean pos fun n => gradPart cfg l i j (ds n)) := by
          unfold outcomeMean selectedMean
          rw [← Finset.sum_div]
          field_simp
        rw [e, h]
        field_simp
      · simp only [if_true, one_mul]
        rw [inv_mul_eq_div, ← h]
        unfold selectedMean
        simp only [inv_mul_eq_div]

/-! ## What is not unbiased -/

/-- A network with one weight: datum `u` has the input `u` and the gradient `u`. -/
def biasedDatum (u : ℝ) : KDatum where
  x := fun _ _ _ => u
  jac := fun _ _ _ _ _ => 1
  sqrt := fun _ _ _ => 0
  lossGrad := fun _ _ _ => u

/-- Empirical KFAC with reduction `mean` of `N` data. -/
def biasedCfg (N : Nat) : KfacCfg := ⟨.empirical, .expand, .ce, true, 1, N, 1, 1, true⟩

/-- The KFAC operator of these data. -/
noncomputable def biasedOp (us : List ℝ) : LinOp ℝ :=
  kfacOp [[1, 1]] true [("lin", [("weight", 0)])]
    (kfacFactors (biasedCfg us.length) [⟨"lin", [("weight", 0)], 1, 1, 1⟩] [us.map biasedDatum]).1
    (kfacFactors (biasedCfg us.length) [⟨"lin", [("weight", 0)], 1, 1, 1⟩] [us.map biasedDatum]).2

/-- KFAC of these data multiplies with the square of the mean of the squares. -/
theorem biasedOp_represents (us : List ℝ) : ∃ M : Mat ℝ, Represents (biasedOp us) M ∧
    M 0 0 = ((us.length : ℝ)⁻¹ * (us.map fun u => u * u).sum) * ((us.length : ℝ)⁻¹ * (us.map fun u => u * u).sum) := by
  have hin := kfac_input_factor (biasedCfg us.length) [⟨"lin", [("weight", 0)], 1, 1, 1⟩] (by simp) [us.map biasedDatum] (by simp)
    ⟨"lin", [("weight", 0)], 1, 1, 1⟩ (by simp) rfl
  have hgr := kfac_grad_factor (biasedCfg us.length) [⟨"lin", [("weight", 0)], 1, 1, 1⟩] (by simp) [us.map biasedDatum] (by simp)
    (by simp [biasedCfg]) (by simp [biasedCfg]) (by simp [biasedCfg]) ⟨"lin", [("weight", 0)], 1, 1, 1⟩ (by simp)
  have h : KfacLayers true [[1, 1]] [("lin", [("weight", 0)])]
      (kfacFactors (biasedCfg us.length) [⟨"lin", [("weight", 0)], 1, 1, 1⟩] [us.map biasedDatum]).1
      (kfacFactors (biasedCfg us.length) [⟨"lin", [("weight", 0)], 1, 1, 1⟩] [us.map biasedDatum]).2
      [⟨"lin", .weight 0, ⟨1, specInputFactor (biasedCfg us.length) ⟨"lin", [("weight", 0)], 1, 1, 1⟩ [us.map biasedDatum].flatten⟩,
        ⟨1, specGradFactor (biasedCfg us.length) ⟨"lin", [("weight", 0)], 1, 1, 1⟩ [us.map biasedDatum].flatten⟩⟩] := by
    refine ⟨rfl, by simp [LayerPos.positions], ?_, ?_, ?_⟩
    · intro l hl _
      obtain rfl := List.mem_singleton.mp hl
      exact hin
    · intro l hl
      obtain rfl := List.mem_singleton.mp hl
      exact hgr
    · intro l hl
      obtain rfl := List.mem_singleton.mp hl
      simp [Layer.Fits, wCols]
  obtain ⟨M, hM⟩ := (kfac_matrix_exists _ _ _ _ _ _ h).1
  refine ⟨M, kfac_represents _ _ _ _ _ _ h M hM, ?_⟩
  have := kron_block_entry hM (List.mem_singleton.mpr rfl) (i := 0) (i' := 0) (j := 0) (j' := 0) (by simp [Layer.wBlock])
    (by simp [Layer.wBlock]) (by simp [Layer.wBlock, wCols]) (by simp [Layer.wBlock, wCols])
  have e : M 0 0 = specGradFactor (biasedCfg us.length) ⟨"lin", [("weight", 0)], 1, 1, 1⟩ [us.map biasedDatum].flatten 0 0 *
      specInputFactor (biasedCfg us.length) ⟨"lin", [("weight", 0)], 1, 1, 1⟩ [us.map biasedDatum].flatten 0 0 := by
    simpa [Layer.wBlock, wCols, offset] using this
  rw [e]
  simp [specGradFactor, specInputFactor, specGradScale, specCotangents, specGradVec, specInputVec, biasedCfg, biasedDatum, KLayer.joint,
    Function.comp_def]

/-- **C108** (KFAC): KFAC itself is a product of unbiased factors and is *not* unbiased: for the data `0` and `1`, KFAC on a single
random datum is `1/2` on average, and KFAC on both is `1/4`. -/
theorem kfac_biased : Exchangeable (fun (s : Fin 1 → Fin 2) (j : Fin 1) => s j) ∧
    ¬ IsMean 1 (fun s : Fin 1 → Fin 2 => biasedOp (List.ofFn fun j => ((s j : Nat) : ℝ))) (biasedOp [0, 1]) := by
  refine ⟨exchangeable_replacement, fun h => ?_⟩
  obtain ⟨Y, Ys, y1, _, y3, y4⟩ := h 1 [⟨[1, 1, 1], [1]⟩] ⟨rfl, by simp [Tensor.WF]⟩
  have key : ∀ (us : List ℝ) (Z : List (Tensor ℝ)), ((biasedOp us).matmat [⟨[1, 1, 1], [1]⟩]).1 = .ok Z →
      (flatData Z).getD 0 0 = ((us.length : ℝ)⁻¹ * (us.map fun u => u * u).sum) * ((us.length : ℝ)⁻¹ * (us.map fun u => u * u).sum) := by
    intro us Z hZ
    obtain ⟨M, hM, hM0⟩ := biasedOp_represents us
    obtain ⟨Z', z1, _, z3⟩ := hM 1 [⟨[1, 1, 1], [1]⟩] ⟨rfl, by simp [Tensor.WF]⟩
    obtain rfl : Z' = Z := by rw [z1] at hZ; exact Except.ok.inj hZ
    have hn : (biasedOp us).nrows = 1 := by simp [LinOp.nrows, LinOp.outFlat, biasedOp, kfacOp]
    have hc : (biasedOp us).ncols = 1 := by simp [LinOp.ncols, LinOp.inFlat, biasedOp, kfacOp]
    have := z3.2 0 (by rw [hn]; simp) 0 (by simp)
    rw [hc] at this
    simpa [flatData, hM0] using this
  have h0 := y4 0
  rw [key _ _ y1] at h0
  simp only [fun s => key _ _ (y3 s).1] at h0
  have e := Equiv.sum_comp (Equiv.funUnique (Fin 1) (Fin 2)).symm fun s : Fin 1 → Fin 2 =>
    (((List.ofFn fun j => ((s j : Nat) : ℝ)).length : ℝ)⁻¹ * ((List.ofFn fun j => ((s j : Nat) : ℝ)).map fun u => u * u).sum) *
      (((List.ofFn fun j => ((s j : Nat) : ℝ)).length : ℝ)⁻¹ * ((List.ofFn fun j => ((s j : Nat) : ℝ)).map fun u => u * u).sum)
  unfold outcomeMean at h0
  rw [← e] at h0
  simp [Fin.sum_univ_two] at h0

/-- A linear model with one parameter, `MSELoss` and input `u`. -/
def loaderDatum (u : ℝ) : List (Term .mse 1) := [⟨fun _ _ => u, fun _ => 0, fun _ => 0⟩]

/-- **C108** (loader, unequal sizes): mini-batches of different sizes with reduction `mean`: the mean of the operators on the mini-batches
(here `1`) is not the operator on all data (here `2/3`). -/
theorem loader_mean_unequal : ¬ IsMean 1
    (fun i : Fin 2 => curvatureOp [[1]] .mean (inferNData List.length [[[loaderDatum 0, loaderDatum 0], [loaderDatum 1]][i]] none) List.length
      (fun b => ggnLossBatch [[1]] true b.flatten) [[[loaderDatum 0, loaderDatum 0], [loaderDatum 1]][i]])
    (curvatureOp [[1]] .mean (inferNData List.length [[loaderDatum 0, loaderDatum 0], [loaderDatum 1]] none) List.length
      (fun b => ggnLossBatch [[1]] true b.flatten) [[loaderDatum 0, loaderDatum 0], [loaderDatum 1]]) := by
  intro h
  obtain ⟨Y, Ys, y1, _, y3, y4⟩ := h 1 [⟨[1, 1], [1]⟩] ⟨rfl, by simp [Tensor.WF]⟩
  have key : ∀ (us : List (List ℝ)) (Z : List (Tensor ℝ)), (∀ b ∈ us, b ≠ []) →
      ((curvatureOp [[1]] .mean (inferNData List.length (us.map fun b => b.map loaderDatum) none) List.length
      (fun b => ggnLossBatch [[1]] true b.flatten) (us.map fun b => b.map loaderDatum)).matmat [⟨[1, 1], [1]⟩]).1 = .ok Z →
      (flatData Z).getD 0 0 = (us.flatten.length : ℝ)⁻¹ * (us.flatten.map fun u => 2 * (u * u)).sum := by
    intro us Z hus hZ
    obtain ⟨Z', z1, _, z3⟩ := product_entries [[1]] .mean (Or.inl rfl) (datumMatrix true 1 lossHessian)
      (fun b => ggnLossBatch [[1]] true b.flatten) (us.map fun b => b.map loaderDatum) (by
        intro b hb
        obtain ⟨b', hb', rfl⟩ := List.mem_map.mp hb
        simpa using hus b' hb') (ggn_batch [[1]] (by simp) 1 true (by
        intro b hb d hd
        obtain ⟨b', hb', rfl⟩ := List.mem_map.mp hb
        obtain ⟨u, _, rfl⟩ := List.mem_map.mp hd
        rfl)) (e := fun i : Fin us.flatten.length => loaderDatum us.flatten[i]) (by
        have := (perm_ofFn_getElem us.flatten).map loaderDatum
        rw [List.map_ofFn] at this
        rw [← List.map_flatten]
        exact this) (K := 1) (M := [⟨[1, 1], [1]⟩]) ⟨rfl, by simp [Tensor.WF]⟩
    obtain rfl : Z' = Z := by rw [z1] at hZ; exact Except.ok.inj hZ
    rw [z3 0, if_pos rfl]
    congr 1
    rw [list_ofFn_perm_sum (perm_ofFn_getElem us.flatten)]
    refine Finset.sum_congr rfl fun i _ => ?_
    simp only [contribution, total, flatData]
    simp [datumMatrix, loaderDatum, termSandwich, lossHessian, hess_mse, termWeight]
    ring
  have h0 := y4 0
  rw [key [[0, 0], [1]] _ (by simp) y1] at h0
  have e0 := key [[0, 0]] _ (by simp) (y3 0).1
  have e1 := key [[1]] _ (by simp) (y3 1).1
  unfold outcomeMean at h0
  rw [Fin.sum_univ_two, e0, e1] at h0
  simp at h0
  norm_num at h0

/-! ## Examples -/

/-- Two of three data without repetition, in one mini-batch. -/
example (M : List (Tensor ℝ)) (K : Nat) (hM : HasShapes M [[2], [1, 1]] K) :
    ∃ (Y : List (Tensor ℝ)) (Ys : (Fin 2 ↪ Fin 3) → List (Tensor ℝ)) (Yn : Fin 3 → List (Tensor ℝ)),
      ((curvatureOp [[2], [1, 1]] .mean (inferNData List.length ceData none) List.length
        (fun b => ggnLossBatch [[2], [1, 1]] true b.flatten) ceData).matmat M).1 = .ok Y ∧
      (∀ s : Fin 2 ↪ Fin 3, ((curvatureOp [[2], [1, 1]] .mean (inferNData List.length [List.ofFn fun j => ceData.flatten[s j]] none)
        List.length (fun b => ggnLossBatch [[2], [1, 1]] true b.flatten) [List.ofFn fun j => ceData.flatten[s j]]).matmat M).1 = .ok (Ys s)) ∧
      (∀ n : Fin 3, ((curvatureOp [[2], [1, 1]] .mean (inferNData List.length [[ceData.flatten[n]]] none)
        List.length (fun b => ggnLossBatch [[2], [1, 1]] true b.flatten) [[ceData.flatten[n]]]).matmat M).1 = .ok (Yn n)) ∧
      ∀ p, (outcomeMean fun s => ((flatData (Ys s)).getD p 0 - (flatData Y).getD p 0) ^ 2) =
        1 / 12 * ∑ n, ((flatData (Yn n)).getD p 0 - (flatData Y).getD p 0) ^ 2 := by
  have : Nonempty (Fin 2 ↪ Fin 3) := ⟨Fin.castSuccEmb⟩
  obtain ⟨Y, Ys, Yn, h1, h2, h3, h4⟩ := selected_variance (N := 3) (m := 2) [[2], [1, 1]] (datumMatrix true 1 lossHessian)
    (fun b => ggnLossBatch [[2], [1, 1]] true b.flatten) (fun n : Fin 3 => ceData.flatten[n]) ceData
    (by simp [ceData, List.ofFn_succ]) (by simp [ceData]) (fun (s : Fin 2 ↪ Fin 3) j => s j)
    (fun s => [List.ofFn fun j => ceData.flatten[s j]]) (by simp) (by simp)
    (fun b _ hb => ggn_batch [[2], [1, 1]] (by simp) 1 true (batches := [b]) (by
      intro b' hb' d hd
      obtain rfl : b' = b := by simpa using hb'
      obtain ⟨n, rfl⟩ := hb d hd
      fin_cases n <;> rfl) b (by simp)) exchangeable_subset (fun s => s.injective) (by simp) hM
  refine ⟨Y, Ys, Yn, h1, h2, h3, fun p => ?_⟩
  rw [h4 p]
  push_cast
  ring

/-- The second and third of three shuffled data, in separate mini-batches. -/
example : IsMean (3 / 2)
    (fun σ : Equiv.Perm (Fin 3) => curvatureOp [[2], [1, 1]] .sum
      (inferNData List.length [[ceData.flatten[σ 1]], [ceData.flatten[σ 2]]] none) List.length
      (fun b => efBatch [[2], [1, 1]] false b.flatten) [[ceData.flatten[σ 1]], [ceData.flatten[σ 2]]])
    (curvatureOp [[2], [1, 1]] .sum (inferNData List.length ceData none) List.length
      (fun b => efBatch [[2], [1, 1]] false b.flatten) ceData) := by
  have := ef_selected_unbiased (N := 3) (m := 2) [[2], [1, 1]] (by simp) 1 (fun n : Fin 3 => ceData.flatten[n])
    (by intro n; fin_cases n <;> rfl) ceData (by simp [ceData, List.ofFn_succ]) (by simp [ceData])
    (fun (σ : Equiv.Perm (Fin 3)) j => σ (![1, 2] j)) (fun σ => [[ceData.flatten[σ 1]], [ceData.flatten[σ 2]]])
    (by intro σ; simp [List.ofFn_succ]) (by simp) false (exchangeable_shuffled _) (by simp)
  simpa [redOf] using this

/-- The factors of `biasedOp` on one random datum out of `0` and `1`. -/
example : ∃ (B : Factor ℝ) (Bs : (Fin 1 → Fin 2) → Factor ℝ),
    (kfacFactors (biasedCfg 2) [⟨"lin", [("weight", 0)], 1, 1, 1⟩] [[biasedDatum 0, biasedDatum 1]]).2.get "lin" = some B ∧
    (∀ s, (kfacFactors (biasedCfg 1) [⟨"lin", [("weight", 0)], 1, 1, 1⟩] [[biasedDatum ((s 0 : Nat) : ℝ)]]).2.get "lin" = some (Bs s)) ∧
    ∀ i j, B.mat i j = outcomeMean fun s => (Bs s).mat i j := by
  have := (kfac_factors_unbiased (N := 2) (m := 1) (biasedCfg 2) rfl (by simp [biasedCfg]) (by simp [biasedCfg]) (by simp [biasedCfg])
    [⟨"lin", [("weight", 0)], 1, 1, 1⟩] (by simp) _ (List.mem_singleton.mpr rfl) (fun n => biasedDatum ((n : Nat) : ℝ)) [[biasedDatum 0, biasedDatum 1]]
    (by simp [List.ofFn_succ]) (fun (s : Fin 1 → Fin 2) j => s j) (fun s => [[biasedDatum ((s 0 : Nat) : ℝ)]]) (by simp)
    exchangeable_replacement (by simp)).2
  simpa [biasedCfg] using this

end Curvlinops
