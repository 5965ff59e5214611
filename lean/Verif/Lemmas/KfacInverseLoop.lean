import Verif.Lemmas.KfacInverse
import Verif.Props.KfacFactors

/-!
# Lemmas on the loop over the layers in the product with the KFAC inverse
-/

namespace Curvlinops

/-- `E` is the inverse of the `N × N` matrix `D`. -/
def MatInv (N : Nat) (D E : Mat ℝ) : Prop :=
  ∀ r < N, ∀ c < N, ∑ m ∈ Finset.range N, D r m * E m c = (if r = c then 1 else 0) ∧
    ∑ m ∈ Finset.range N, E r m * D m c = if r = c then 1 else 0

/-! ## Assignments to the argument list -/

theorem setAll_length {β : Type _} (ws : List (Nat × β)) (X : List β) : (setAll X ws).length = X.length := by
  unfold setAll
  induction ws generalizing X with
  | nil => rfl
  | cons w ws ih => rw [List.foldl_cons, ih, List.length_set]

theorem setAll_append {β : Type _} (X : List β) (ws us : List (Nat × β)) : setAll X (ws ++ us) = setAll (setAll X ws) us := by
  simp [setAll]

theorem setAll_notMem {β : Type _} (ws : List (Nat × β)) (X : List β) (p : Nat) (h : p ∉ ws.map Prod.fst) :
    (setAll X ws)[p]? = X[p]? := by
  unfold setAll
  induction ws generalizing X with
  | nil => rfl
  | cons w ws ih =>
    simp only [List.map_cons, List.mem_cons, not_or] at h
    rw [List.foldl_cons, ih _ h.2, List.getElem?_set_ne (Ne.symm h.1)]

theorem setAll_mem {β : Type _} (ws : List (Nat × β)) (X : List β) (p : Nat) (t : β) (h : (p, t) ∈ ws)
    (hn : (ws.map Prod.fst).Nodup) (hp : p < X.length) : (setAll X ws)[p]? = some t := by
  induction ws generalizing X with
  | nil => simp at h
  | cons w ws ih =>
    rw [List.map_cons, List.nodup_cons] at hn
    have hs : setAll X (w :: ws) = setAll (X.set w.1 w.2) ws := rfl
    rw [hs]
    rcases List.mem_cons.mp h with rfl | h
    · rw [setAll_notMem _ _ _ hn.1]
      simp [hp]
    · exact ih _ h hn.2 (by simpa using hp)

theorem listGet_congr {β : Type _} {X X' : List β} {p : Nat} (h : X[p]? = X'[p]?) : listGet X p = listGet X' p := by
  simp only [listGet, h]

/-- A layer only reads the layer's entries. -/
theorem invLayer_congr (cfg : InvCfg) (sep : Bool) (inv : KInv) (X X' : List (Tensor ℝ)) (pos : LayerPos)
    (h : ∀ p ∈ pos.positions, X[p]? = X'[p]?) : invLayer cfg sep inv X pos.dict = invLayer cfg sep inv X' pos.dict := by
  cases pos with
  | both w b =>
    have hw := listGet_congr (h w (by simp [LayerPos.positions]))
    have hb := listGet_congr (h b (by simp [LayerPos.positions]))
    cases sep <;> simp [invLayer, LayerPos.dict, Dict.get, List.lookup, pyMapM, hw, hb]
  | weight w =>
    have hw := listGet_congr (h w (by simp [LayerPos.positions]))
    cases sep <;> simp [invLayer, LayerPos.dict, Dict.get, List.lookup, pyMapM, hw]
  | bias b =>
    have hb := listGet_congr (h b (by simp [LayerPos.positions]))
    cases sep <;> simp [invLayer, LayerPos.dict, Dict.get, List.lookup, pyMapM, hb]

/-! ## Caches -/

/-- Cached inverses are those of the present factors. -/
def CacheOk (la : LinAlg) (cfg : InvCfg) (dt : FloatType) (inCov gradCov : Dict (Factor ℝ)) (cache : Dict KInv) : Prop :=
  ∀ name inv, cache.get name = some inv → computeInverseFactors la cfg dt (inCov.get name) (gradCov.get name) = .ok inv

theorem CacheOk.nil (la : LinAlg) (cfg : InvCfg) (dt : FloatType) (inCov gradCov : Dict (Factor ℝ)) :
    CacheOk la cfg dt inCov gradCov [] := by
  intro name inv h
  simp [Dict.get] at h

theorem computeOrGet_fst (la : LinAlg) (cfg : InvCfg) (dt : FloatType) (inCov gradCov : Dict (Factor ℝ)) (cache : Dict KInv)
    (h : CacheOk la cfg dt inCov gradCov cache) (name : String) :
    (computeOrGet la cfg dt inCov gradCov cache name).1 =
      computeInverseFactors la cfg dt (inCov.get name) (gradCov.get name) := by
  unfold computeOrGet
  cases hc : cache.get name with
  | some inv => simp only [h name inv hc]
  | none =>
    simp only
    cases computeInverseFactors la cfg dt (inCov.get name) (gradCov.get name) <;> rfl

theorem computeOrGet_cache (la : LinAlg) (cfg : InvCfg) (dt : FloatType) (inCov gradCov : Dict (Factor ℝ)) (cache : Dict KInv)
    (h : CacheOk la cfg dt inCov gradCov cache) (name : String) :
    CacheOk la cfg dt inCov gradCov (computeOrGet la cfg dt inCov gradCov cache name).2 := by
  unfold computeOrGet
  cases hc : cache.get name with
  | some inv => exact h
  | none =>
    simp only
    cases hi : computeInverseFactors la cfg dt (inCov.get name) (gradCov.get name) with
    | error e => exact h
    | ok inv =>
      simp only
      split
      · intro name' inv' hg
        rw [Dict.get_set] at hg
        split at hg
        · rename_i hn
          subst hn
          cases hg
          exact hi
        · exact h name' inv' hg
      · exact h

/-! ## The loop -/

/-- The loop over the layers assigns what the layers' products give for the original list. -/
theorem invLoop_writes {β : Type _} (la : LinAlg) (cfg : InvCfg) (dt : FloatType) (sep : Bool) (shapes : List (List Nat))
    (inCov gradCov : Dict (Factor ℝ)) (g : β → KBlock ℝ) (ent : β → Nat → Nat → Nat → Nat → ℝ)
    (bs : Layer ℝ → List β) (inv : Layer ℝ → KInv) (K : Nat) (X₀ : List (Tensor ℝ)) (layers : List (Layer ℝ))
    (hcomp : ∀ l ∈ layers, computeInverseFactors la cfg dt (inCov.get l.name) (gradCov.get l.name) = .ok (inv l))
    (hlayer : ∀ l ∈ layers, ∃ ws, invLayer cfg sep (inv l) X₀ l.pos.dict = .ok ws ∧
      GWrites g ent shapes K (flatData X₀) (bs l) l.pos.positions ws)
    (hnd : (layers.flatMap fun l => l.pos.positions).Nodup) (X : List (Tensor ℝ))
    (hX : ∀ l ∈ layers, ∀ p ∈ l.pos.positions, X[p]? = X₀[p]?) (cache : Dict KInv)
    (hc : CacheOk la cfg dt inCov gradCov cache) :
    ∃ ws cache', GWrites g ent shapes K (flatData X₀) (layers.flatMap bs) (layers.flatMap fun l => l.pos.positions) ws ∧
      invLoop la cfg dt sep inCov gradCov (layers.map fun l => (l.name, l.pos.dict)) X cache =
        (.ok (), setAll X ws, cache') ∧ CacheOk la cfg dt inCov gradCov cache' := by
  induction layers generalizing X cache with
  | nil => exact ⟨[], cache, ⟨rfl, by simp, by simp⟩, rfl, hc⟩
  | cons l ls ih =>
    obtain ⟨ws, hws, hw⟩ := hlayer l (by simp)
    rw [List.flatMap_cons, List.nodup_append] at hnd
    have hfst := computeOrGet_fst la cfg dt inCov gradCov cache hc l.name
    have hsnd := computeOrGet_cache la cfg dt inCov gradCov cache hc l.name
    rw [hcomp l (by simp)] at hfst
    have hX' : ∀ m ∈ ls, ∀ p ∈ m.pos.positions, (setAll X ws)[p]? = X₀[p]? := by
      intro m hm p hp
      rw [setAll_notMem]
      · exact hX m (by simp [hm]) p hp
      · rw [hw.1]
        exact fun hp' => hnd.2.2 p hp' p (List.mem_flatMap.mpr ⟨m, hm, hp⟩) rfl
    obtain ⟨us, cache', hu, hloop, hc'⟩ := ih (fun m hm => hcomp m (by simp [hm])) (fun m hm => hlayer m (by simp [hm]))
      hnd.2.1 (setAll X ws) hX' _ hsnd
    refine ⟨ws ++ us, cache', ?_, ?_, hc'⟩
    · exact hw.append hu
    · have hl : invLayer cfg sep (inv l) X l.pos.dict = .ok ws := by
        rw [invLayer_congr cfg sep (inv l) X X₀ l.pos (hX l (by simp)), hws]
      rw [List.map_cons, invLoop]
      rw [show computeOrGet la cfg dt inCov gradCov cache l.name =
        (.ok (inv l), (computeOrGet la cfg dt inCov gradCov cache l.name).2) from Prod.ext hfst rfl]
      simp only [hl, hloop, setAll_append]

/-- A weight: from entries of the product to assignments. -/
theorem weight_gwrites {β : Type _} (shapes : List (List Nat)) (K : Nat) (Xs : List (Tensor ℝ)) (hX : HasShapes Xs shapes K)
    (l : Layer ℝ) (w : Nat) (hw : w < Xs.length) (h : (shapes.getD w []).head? = some l.B.dim) (g : β → KBlock ℝ)
    (ent : β → Nat → Nat → Nat → Nat → ℝ) (b : β) (hg : g b = l.wBlock shapes w) (u : Tensor ℝ)
    (hus : u.shape = (Xs[w]).shape) (huwf : u.WF)
    (hue : ∀ i < l.B.dim, ∀ j < wCols shapes w, ∀ k < K, u.data.getD ((i * wCols shapes w + j) * K + k) 0 =
      ∑ i' ∈ Finset.range l.B.dim, ∑ j' ∈ Finset.range (wCols shapes w), ent b i j i' j' *
        (Xs[w]).data.getD ((i' * wCols shapes w + j') * K + k) 0) :
    GWrites g ent shapes K (flatData Xs) [b] [w] [(w, u)] := by
  refine ⟨rfl, ?_, ?_⟩
  · intro p t hpt
    simp only [List.mem_singleton, Prod.mk.injEq] at hpt
    obtain ⟨rfl, rfl⟩ := hpt
    exact ⟨by rw [hus, hX.getElem_shape], huwf⟩
  · intro b' hb i hi j hj k hk
    simp only [List.mem_singleton] at hb
    subst hb
    rw [hg] at hi hj ⊢
    refine ⟨w, u, i * wCols shapes w + j, by simp, ?_, rfl, ?_⟩
    · rw [wProd h]; exact flat_index_lt hi hj
    · refine (hue i hi j hj k hk).trans ?_
      refine Finset.sum_congr rfl fun i' hi' => Finset.sum_congr rfl fun j' hj' => ?_
      simp only [Layer.wBlock]
      rw [flatData_offset Xs shapes K hX w hw _ k
        (by rw [wProd h]; exact flat_index_lt (Finset.mem_range.mp hi') (Finset.mem_range.mp hj')) hk]

/-- A bias. -/
theorem bias_gwrites {β : Type _} (shapes : List (List Nat)) (K : Nat) (Xs : List (Tensor ℝ)) (hX : HasShapes Xs shapes K)
    (l : Layer ℝ) (b : Nat) (hb : b < Xs.length) (h : shapes.getD b [] = [l.B.dim]) (g : β → KBlock ℝ)
    (ent : β → Nat → Nat → Nat → Nat → ℝ) (c : β) (hg : g c = l.bBlock shapes b) (u : Tensor ℝ)
    (hus : u.shape = (Xs[b]).shape) (huwf : u.WF)
    (hue : ∀ i < l.B.dim, ∀ k < K, u.data.getD (i * K + k) 0 =
      ∑ i' ∈ Finset.range l.B.dim, ∑ j' ∈ Finset.range 1, ent c i 0 i' j' * (Xs[b]).data.getD (i' * K + k) 0) :
    GWrites g ent shapes K (flatData Xs) [c] [b] [(b, u)] := by
  refine ⟨rfl, ?_, ?_⟩
  · intro p t hpt
    simp only [List.mem_singleton, Prod.mk.injEq] at hpt
    obtain ⟨rfl, rfl⟩ := hpt
    exact ⟨by rw [hus, hX.getElem_shape], huwf⟩
  · intro c' hc i hi j hj k hk
    simp only [List.mem_singleton] at hc
    subst hc
    rw [hg] at hi hj ⊢
    have hi' : i < l.B.dim := hi
    have hj0 : j = 0 := by
      have : j < 1 := hj
      omega
    subst hj0
    refine ⟨b, u, i, by simp, by rw [h]; simpa using hi', rfl, ?_⟩
    refine (hue i hi k hk).trans ?_
    refine Finset.sum_congr rfl fun i' hi' => Finset.sum_congr rfl fun j' _ => ?_
    simp only [Layer.bBlock]
    rw [flatData_offset Xs shapes K hX b hb _ k (by rw [h]; simpa using (show i' < l.B.dim from Finset.mem_range.mp hi')) hk]

/-- Jointly treated weight and bias. -/
theorem joint_gwrites {β : Type _} (shapes : List (List Nat)) (K : Nat) (Xs : List (Tensor ℝ)) (hX : HasShapes Xs shapes K)
    (l : Layer ℝ) (w b : Nat) (hw : w < Xs.length) (hb : b < Xs.length)
    (h : (shapes.getD w []).head? = some l.B.dim) (hbs : shapes.getD b [] = [l.B.dim]) (g : β → KBlock ℝ)
    (ent : β → Nat → Nat → Nat → Nat → ℝ) (c : β) (hg : g c = l.jBlock shapes w b) (w' b' : Tensor ℝ)
    (hws : w'.shape = (Xs[w]).shape) (hwwf : w'.WF) (hbs' : b'.shape = (Xs[b]).shape) (hbwf : b'.WF)
    (hval : ∀ M : Nat → Nat → Nat → ℝ,
        (∀ i < l.B.dim, ∀ k < K, (∀ j < wCols shapes w, M i j k = (Xs[w]).data.getD ((i * wCols shapes w + j) * K + k) 0) ∧
          M i (wCols shapes w) k = (Xs[b]).data.getD (i * K + k) 0) →
        ∀ i < l.B.dim, ∀ k < K,
          (∀ j < wCols shapes w, w'.data.getD ((i * wCols shapes w + j) * K + k) 0 =
            ∑ i' ∈ Finset.range l.B.dim, ∑ j' ∈ Finset.range (wCols shapes w + 1), ent c i j i' j' * M i' j' k) ∧
          b'.data.getD (i * K + k) 0 =
            ∑ i' ∈ Finset.range l.B.dim, ∑ j' ∈ Finset.range (wCols shapes w + 1),
              ent c i (wCols shapes w) i' j' * M i' j' k) :
    GWrites g ent shapes K (flatData Xs) [c] [w, b] [(w, w'), (b, b')] := by
  have hM : ∀ i < l.B.dim, ∀ k < K,
      (∀ j < wCols shapes w, (flatData Xs).getD ((l.jBlock shapes w b).idx i j * K + k) 0 =
        (Xs[w]).data.getD ((i * wCols shapes w + j) * K + k) 0) ∧
      (flatData Xs).getD ((l.jBlock shapes w b).idx i (wCols shapes w) * K + k) 0 =
        (Xs[b]).data.getD (i * K + k) 0 := by
    intro i hi k hk
    constructor
    · intro j hj
      simp only [Layer.jBlock, if_pos hj]
      exact flatData_offset Xs shapes K hX w hw _ k (by rw [wProd h]; exact flat_index_lt hi hj) hk
    · simp only [Layer.jBlock, lt_irrefl, if_false]
      exact flatData_offset Xs shapes K hX b hb _ k (by rw [hbs]; simpa using hi) hk
  have hval := hval (fun i j k => (flatData Xs).getD ((l.jBlock shapes w b).idx i j * K + k) 0) hM
  refine ⟨rfl, ?_, ?_⟩
  · intro p t hpt
    simp only [List.mem_cons, Prod.mk.injEq, List.not_mem_nil, or_false] at hpt
    rcases hpt with ⟨rfl, rfl⟩ | ⟨rfl, rfl⟩
    · exact ⟨by rw [hws, hX.getElem_shape], hwwf⟩
    · exact ⟨by rw [hbs', hX.getElem_shape], hbwf⟩
  · intro c' hc i hi j hj k hk
    simp only [List.mem_singleton] at hc
    subst hc
    rw [hg] at hi hj ⊢
    have hi' : i < l.B.dim := hi
    have hj' : j < wCols shapes w + 1 := hj
    by_cases hlt : j < wCols shapes w
    · refine ⟨w, w', i * wCols shapes w + j, by simp, ?_, ?_, ?_⟩
      · rw [wProd h]; exact flat_index_lt hi' hlt
      · simp [Layer.jBlock, hlt]
      · exact (hval i hi' k hk).1 j hlt
    · have hje : j = wCols shapes w := by omega
      refine ⟨b, b', i, by simp, by rw [hbs]; simpa using hi', ?_, ?_⟩
      · simp [Layer.jBlock, hlt]
      · subst hje
        exact (hval i hi' k hk).2

/-- `LayerWrites` for one component of pairs. -/
theorem gwrites_of_layerWrites {β : Type _} (g : β → KBlock ℝ) (shapes : List (List Nat)) (K : Nat) (x : List ℝ) (bs : List β)
    (positions : List Nat) (ws : List (Nat × Tensor ℝ)) (h : LayerWrites shapes K x (bs.map g) positions ws) :
    GWrites g (fun b => kronEnt (g b)) shapes K x bs positions ws := by
  refine ⟨h.1, h.2.1, fun b hb i hi j hj k hk => ?_⟩
  exact h.2.2 (g b) (List.mem_map_of_mem hb) i hi j hj k hk

/-- From the layers to the matrix, and its inverse. -/
theorem inverse_of_writes {β : Type _} (op : LinOp ℝ) (shapes : List (List Nat)) (hin : op.inShape = shapes)
    (hout : op.outShape = shapes) (g : β → KBlock ℝ) (ent ment : β → Nat → Nat → Nat → Nat → ℝ) (bs : List β)
    (ht : GTiles g bs (shapes.map List.prod).sum) (positions : List Nat)
    (hperm : positions.Perm (List.range shapes.length))
    (h : ∀ K Xs, HasShapes Xs shapes K → ∃ ws Ys, GWrites g ent shapes K (flatData Xs) bs positions ws ∧
      (op.matmat Xs).1 = .ok Ys ∧ Ys.length = shapes.length ∧ ∀ p t, (p, t) ∈ ws → Ys[p]? = some t)
    (D : Mat ℝ) (hD : BlockDiag g ment bs D)
    (hinv : ∀ b ∈ bs, ∀ i < (g b).rows, ∀ j < (g b).cols, ∀ i'' < (g b).rows, ∀ j'' < (g b).cols,
      ∑ i' ∈ Finset.range (g b).rows, ∑ j' ∈ Finset.range (g b).cols, ment b i j i' j' * ent b i' j' i'' j'' =
          (if i = i'' ∧ j = j'' then 1 else 0) ∧
        ∑ i' ∈ Finset.range (g b).rows, ∑ j' ∈ Finset.range (g b).cols, ent b i j i' j' * ment b i' j' i'' j'' =
          if i = i'' ∧ j = j'' then 1 else 0) :
    ∃ E, Represents op E ∧ MatInv (shapes.map List.prod).sum D E := by
  obtain ⟨E, hE⟩ := exists_blockDiag ent ht
  refine ⟨E, represents_of_writes op shapes hin hout g ent bs ht E hE positions hperm h, fun r hr c hc => ⟨?_, ?_⟩⟩
  · exact ((hD.mul hE ht).congr (fun b _ => ⟨rfl, rfl, fun _ _ _ _ => rfl⟩) fun b hb i hi j hj i'' hi'' j'' hj'' =>
      ((hinv b hb i hi j hj i'' hi'' j'' hj'').1).symm).unique (blockDiag_one ht) ht r c hr hc
  · exact ((hE.mul hD ht).congr (fun b _ => ⟨rfl, rfl, fun _ _ _ _ => rfl⟩) fun b hb i hi j hj i'' hi'' j'' hj'' =>
      ((hinv b hb i hi j hj i'' hi'' j'' hj'').2).symm).unique (blockDiag_one ht) ht r c hr hc

end Curvlinops
