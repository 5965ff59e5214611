import Verif.Lemmas.Kron
import Verif.Lemmas.Jacobian
import Verif.Spec.KfacLayers

/-!
# C29: products with KFAC

The KFAC operator multiplies with the block-diagonal matrix whose blocks are Kronecker products of the layers' factors.
-/

namespace Curvlinops

variable {α : Type _}

theorem KBlock.coords_w (shapes : List (List Nat)) (l : Layer α) (w : Nat)
    (h : (shapes.getD w []).head? = some l.B.dim) : (l.wBlock shapes w).coords = posCoords shapes w := by
  have hs : (shapes.getD w []).prod = l.B.dim * wCols shapes w := by
    unfold wCols
    rcases hd : shapes.getD w [] with _ | ⟨d, s⟩
    · rw [hd] at h; cases h
    · rw [hd] at h
      simp only [List.head?_cons, Option.some.injEq] at h
      simp [h]
  rw [KBlock.coords, posCoords, hs]
  exact flatMap_range_mul _ _ _

theorem KBlock.coords_b [One α] (shapes : List (List Nat)) (l : Layer α) (b : Nat)
    (h : shapes.getD b [] = [l.B.dim]) : (l.bBlock shapes b).coords = posCoords shapes b := by
  rw [KBlock.coords, posCoords, h]
  simp only [Layer.bBlock, List.prod_singleton]
  rw [List.flatMap_congr (g := fun i => [offset shapes b + i]) (fun i _ => by simp)]
  induction l.B.dim with
  | zero => rfl
  | succ n ih => rw [List.range_succ, List.flatMap_append, List.map_append, ih]; simp

theorem KBlock.coords_j (shapes : List (List Nat)) (l : Layer α) (w b : Nat)
    (h : (shapes.getD w []).head? = some l.B.dim) (hb : shapes.getD b [] = [l.B.dim]) :
    (l.jBlock shapes w b).coords.Perm (posCoords shapes w ++ posCoords shapes b) := by
  have h1 : (l.jBlock shapes w b).coords = (List.range l.B.dim).flatMap fun i =>
      ((List.range (wCols shapes w)).map fun j => offset shapes w + (i * wCols shapes w + j)) ++
        [offset shapes b + i] := by
    refine List.flatMap_congr fun i _ => ?_
    simp only [Layer.jBlock, List.range_succ, List.map_append, List.map_cons, List.map_nil, lt_irrefl, if_false]
    congr 1
    refine List.map_congr_left fun j hj => ?_
    rw [if_pos (List.mem_range.mp hj)]
  rw [h1]
  refine (perm_flatMap_concat _ _ _).trans ?_
  rw [← KBlock.coords_w shapes l w h]
  simp only [KBlock.coords, Layer.wBlock, posCoords, hb, List.prod_singleton]
  exact List.Perm.refl _

theorem Layer.blocks_coords [One α] (sep : Bool) (shapes : List (List Nat)) (l : Layer α) (h : l.Fits sep shapes) :
    ((l.blocks sep shapes).flatMap KBlock.coords).Perm (l.pos.positions.flatMap (posCoords shapes)) := by
  unfold Layer.Fits at h
  unfold Layer.blocks
  cases hp : l.pos with
  | both w b =>
    simp only [hp] at h ⊢
    cases sep with
    | true => simp [LayerPos.positions, KBlock.coords_w _ _ _ h.1, KBlock.coords_b _ _ _ h.2.1]
    | false =>
      simp only [Bool.false_eq_true, if_false, List.flatMap_cons, List.flatMap_nil, List.append_nil,
        LayerPos.positions]
      exact KBlock.coords_j _ _ _ _ h.1 h.2.1
  | weight w =>
    simp only [hp] at h ⊢
    simp [LayerPos.positions, KBlock.coords_w _ _ _ h.1]
  | bias b =>
    simp only [hp] at h ⊢
    simp [LayerPos.positions, KBlock.coords_b _ _ _ h]

theorem perm_flatMap_of_forall {β γ : Type _} (f g : β → List γ) (l : List β) (h : ∀ b ∈ l, (f b).Perm (g b)) :
    (l.flatMap f).Perm (l.flatMap g) := by
  induction l with
  | nil => exact List.Perm.refl _
  | cons b l ih =>
    rw [List.flatMap_cons, List.flatMap_cons]
    exact (h b (by simp)).append (ih fun c hc => h c (by simp [hc]))

/-- **C29** (the blocks cover the parameter vector): every coordinate of the parameter vector belongs to exactly one
entry of one block. -/
theorem kfac_tiles [One α] (sep : Bool) (shapes : List (List Nat)) (mapping : Dict (Dict Nat))
    (inCov gradCov : Dict (Factor α)) (layers : List (Layer α))
    (h : KfacLayers sep shapes mapping inCov gradCov layers) :
    Tiles (kfacBlocks sep shapes layers) (shapes.map List.prod).sum := by
  refine tiles_of_perm _ _ ?_
  rw [← range_flatMap_posCoords, kfacBlocks, List.flatMap_assoc]
  refine (perm_flatMap_of_forall _ _ layers fun l hl => Layer.blocks_coords sep shapes l (h.fits l hl)).trans ?_
  rw [← List.flatMap_assoc]
  exact h.perm.flatMap_right _

section Product

variable [CommSemiring α]

/-- What one iteration of the loop has to achieve: the layer's positions are assigned tensors of the right shape, and
the entries of each block are those of `B W A`. -/
def LayerWrites (shapes : List (List Nat)) (K : Nat) (x : List α) (bs : List (KBlock α)) (positions : List Nat)
    (ws : List (Nat × Tensor α)) : Prop :=
  ws.map Prod.fst = positions ∧ (∀ p t, (p, t) ∈ ws → t.shape = shapes.getD p [] ++ [K] ∧ t.WF) ∧
    ∀ b ∈ bs, ∀ i < b.rows, ∀ j < b.cols, ∀ k < K, ∃ p t q, (p, t) ∈ ws ∧ q < (shapes.getD p []).prod ∧
      b.idx i j = offset shapes p + q ∧ t.data.getD (q * K + k) 0 =
        ∑ i' ∈ Finset.range b.rows, ∑ j' ∈ Finset.range b.cols,
          b.B i i' * b.A j' j * x.getD (b.idx i' j' * K + k) 0

theorem listGet_ok {β : Type _} (M : List β) (p : Nat) (hp : p < M.length) : listGet M p = .ok M[p] := by
  simp [listGet, hp]

omit [CommSemiring α] in
theorem HasShapes.getElem_shape {Xs : List (Tensor α)} {shapes : List (List Nat)} {K : Nat}
    (h : HasShapes Xs shapes K) (p : Nat) (hp : p < Xs.length) : (Xs[p]).shape = shapes.getD p [] ++ [K] := by
  have h1 := congrArg (fun l : List (List Nat) => l[p]?) h.1
  have hp' : p < shapes.length := h.length ▸ hp
  simpa [hp, hp'] using h1

omit [CommSemiring α] in
theorem wShape {shapes : List (List Nat)} {l : Layer α} {w : Nat} (h : (shapes.getD w []).head? = some l.B.dim) :
    shapes.getD w [] = l.B.dim :: (shapes.getD w []).tail := by
  rcases hd : shapes.getD w [] with _ | ⟨d, s⟩
  · rw [hd] at h; cases h
  · rw [hd] at h
    simp only [List.head?_cons, Option.some.injEq] at h
    rw [h]; rfl

omit [CommSemiring α] in
theorem wProd {shapes : List (List Nat)} {l : Layer α} {w : Nat} (h : (shapes.getD w []).head? = some l.B.dim) :
    (shapes.getD w []).prod = l.B.dim * wCols shapes w := by
  rw [wShape h, List.prod_cons]; rfl

theorem weight_writes (shapes : List (List Nat)) (K : Nat) (Xs : List (Tensor α)) (hX : HasShapes Xs shapes K)
    (l : Layer α) (w : Nat) (hw : w < Xs.length) (h : (shapes.getD w []).head? = some l.B.dim)
    (hA : l.A.dim = wCols shapes w) :
    ∃ u, weightProduct l.A l.B Xs[w] = .ok u ∧
      LayerWrites shapes K (flatData Xs) [l.wBlock shapes w] [w] [(w, u)] := by
  have hs : (Xs[w]).shape = l.B.dim :: ((shapes.getD w []).tail ++ [K]) := by
    rw [hX.getElem_shape w hw, wShape h]; rfl
  obtain ⟨u, hu, hus, huwf, hue⟩ := weightProduct_spec l.A l.B Xs[w] l.B.dim _ K hs hA rfl
  refine ⟨u, hu, rfl, ?_, ?_⟩
  · intro p t hpt
    simp only [List.mem_singleton, Prod.mk.injEq] at hpt
    obtain ⟨rfl, rfl⟩ := hpt
    exact ⟨by rw [hus, hX.getElem_shape], huwf⟩
  · intro b hb i hi j hj k hk
    simp only [List.mem_singleton] at hb
    subst hb
    refine ⟨w, u, i * wCols shapes w + j, by simp, ?_, rfl, ?_⟩
    · rw [wProd h]; exact flat_index_lt hi hj
    · refine (hue i hi j hj k hk).trans ?_
      refine Finset.sum_congr rfl fun i' hi' => Finset.sum_congr rfl fun j' hj' => ?_
      simp only [Layer.wBlock]
      rw [flatData_offset Xs shapes K hX w hw _ k
        (by rw [wProd h]; exact flat_index_lt (Finset.mem_range.mp hi') (Finset.mem_range.mp hj')) hk]
      simp only [wCols]
      ring

theorem bias_writes (shapes : List (List Nat)) (K : Nat) (Xs : List (Tensor α)) (hX : HasShapes Xs shapes K)
    (l : Layer α) (b : Nat) (hb : b < Xs.length) (h : shapes.getD b [] = [l.B.dim]) :
    ∃ u, mulLeft l.B Xs[b] = .ok u ∧
      LayerWrites shapes K (flatData Xs) [l.bBlock shapes b] [b] [(b, u)] := by
  have hs : (Xs[b]).shape = l.B.dim :: [K] := by rw [hX.getElem_shape b hb, h]; rfl
  obtain ⟨u, hu, hus, huwf, hue⟩ := mulLeft_spec l.B Xs[b] l.B.dim [K] hs rfl
  refine ⟨u, hu, rfl, ?_, ?_⟩
  · intro p t hpt
    simp only [List.mem_singleton, Prod.mk.injEq] at hpt
    obtain ⟨rfl, rfl⟩ := hpt
    exact ⟨by rw [hus, hX.getElem_shape], huwf⟩
  · intro c hc i hi j hj k hk
    simp only [List.mem_singleton] at hc
    subst hc
    refine ⟨b, u, i, by simp, by rw [h]; simpa using (show i < l.B.dim from hi), rfl, ?_⟩
    have := hue i hi k (by simpa using hk)
    simp only [List.prod_singleton] at this
    rw [this]
    refine Finset.sum_congr rfl fun i' hi' => ?_
    simp only [Layer.bBlock, Finset.sum_range_one, mul_one]
    rw [flatData_offset Xs shapes K hX b hb _ k (by rw [h]; simpa using (show i' < l.B.dim from Finset.mem_range.mp hi')) hk]

theorem joint_writes (shapes : List (List Nat)) (K : Nat) (Xs : List (Tensor α)) (hX : HasShapes Xs shapes K)
    (l : Layer α) (w b : Nat) (hw : w < Xs.length) (hb : b < Xs.length)
    (h : (shapes.getD w []).head? = some l.B.dim) (hbs : shapes.getD b [] = [l.B.dim])
    (hA : l.A.dim = wCols shapes w + 1) :
    ∃ w' b', jointProduct l.A l.B Xs[w] Xs[b] = .ok (w', b') ∧
      LayerWrites shapes K (flatData Xs) [l.jBlock shapes w b] [w, b] [(w, w'), (b, b')] := by
  have hs : (Xs[w]).shape = l.B.dim :: ((shapes.getD w []).tail ++ [K]) := by
    rw [hX.getElem_shape w hw, wShape h]; rfl
  have hs' : (Xs[b]).shape = [l.B.dim, K] := by rw [hX.getElem_shape b hb, hbs]; rfl
  obtain ⟨w', b', hok, hws, hwwf, hbs', hbwf, hval⟩ := jointProduct_spec l.A l.B Xs[w] Xs[b] l.B.dim _ K hs hs' hA rfl
  have hM : ∀ i < l.B.dim, ∀ k < K,
      (∀ j < wCols shapes w, (flatData Xs).getD ((l.jBlock shapes w b).idx i j * K + k) 0 =
        (Xs[w]).data.getD ((i * wCols shapes w + j) * K + k) 0) ∧
      (flatData Xs).getD ((l.jBlock shapes w b).idx i (wCols shapes w) * K + k) 0 =
        (Xs[b]).data.getD (i * K + k) 0 := by
    intro i hi k hk
    constructor
    · intro j hj
      simp only [Layer.jBlock, if_pos hj]
      exact flatData_offset Xs shapes K hX w hw _ k (by rw [wProd h]; exact flat_index_lt hi hj) hk
    · simp only [Layer.jBlock, lt_irrefl, if_false]
      exact flatData_offset Xs shapes K hX b hb _ k (by rw [hbs]; simpa using hi) hk
  have hval := hval (fun i j k => (flatData Xs).getD ((l.jBlock shapes w b).idx i j * K + k) 0) hM
  refine ⟨w', b', hok, rfl, ?_, ?_⟩
  · intro p t hpt
    simp only [List.mem_cons, Prod.mk.injEq, List.not_mem_nil, or_false] at hpt
    rcases hpt with ⟨rfl, rfl⟩ | ⟨rfl, rfl⟩
    · exact ⟨by rw [hws, hX.getElem_shape], hwwf⟩
    · exact ⟨by rw [hbs', hX.getElem_shape], hbwf⟩
  · intro c hc i hi j hj k hk
    simp only [List.mem_singleton] at hc
    subst hc
    have hi' : i < l.B.dim := hi
    have hj' : j < wCols shapes w + 1 := hj
    by_cases hlt : j < wCols shapes w
    · refine ⟨w, w', i * wCols shapes w + j, by simp, ?_, ?_, ?_⟩
      · rw [wProd h]; exact flat_index_lt hi' hlt
      · simp [Layer.jBlock, hlt]
      · refine ((hval i hi' k hk).1 j hlt).trans ?_
        refine Finset.sum_congr rfl fun i' _ => Finset.sum_congr rfl fun j' _ => ?_
        exact mul_right_comm _ _ _
    · have hje : j = wCols shapes w := by omega
      refine ⟨b, b', i, by simp, by rw [hbs]; simpa using hi', ?_, ?_⟩
      · simp [Layer.jBlock, hlt]
      · refine ((hval i hi' k hk).2).trans ?_
        subst hje
        refine Finset.sum_congr rfl fun i' _ => Finset.sum_congr rfl fun j' _ => ?_
        exact mul_right_comm _ _ _

theorem LayerWrites.append {shapes : List (List Nat)} {K : Nat} {x : List α} {bs bs' : List (KBlock α)}
    {ps ps' : List Nat} {ws ws' : List (Nat × Tensor α)} (h : LayerWrites shapes K x bs ps ws)
    (h' : LayerWrites shapes K x bs' ps' ws') : LayerWrites shapes K x (bs ++ bs') (ps ++ ps') (ws ++ ws') := by
  refine ⟨by rw [List.map_append, h.1, h'.1], ?_, ?_⟩
  · intro p t hpt
    rcases List.mem_append.mp hpt with hpt | hpt
    · exact h.2.1 p t hpt
    · exact h'.2.1 p t hpt
  · intro b hb i hi j hj k hk
    rcases List.mem_append.mp hb with hb | hb
    · obtain ⟨p, t, q, h1, h2⟩ := h.2.2 b hb i hi j hj k hk
      exact ⟨p, t, q, List.mem_append_left _ h1, h2⟩
    · obtain ⟨p, t, q, h1, h2⟩ := h'.2.2 b hb i hi j hj k hk
      exact ⟨p, t, q, List.mem_append_right _ h1, h2⟩

theorem layer_writes (sep : Bool) (shapes : List (List Nat)) (inCov gradCov : Dict (Factor α)) (K : Nat)
    (Xs : List (Tensor α)) (hX : HasShapes Xs shapes K) (l : Layer α) (hfit : l.Fits sep shapes)
    (hpos : ∀ p ∈ l.pos.positions, p < Xs.length)
    (hin : l.pos.hasWeight = true → inCov.get l.name = some l.A) (hgrad : gradCov.get l.name = some l.B) :
    ∃ ws, layerProduct sep inCov gradCov Xs l.name l.pos.dict = .ok ws ∧
      LayerWrites shapes K (flatData Xs) (l.blocks sep shapes) l.pos.positions ws := by
  have hgE : gradCov.getE l.name = .ok l.B := by simp [Dict.getE, hgrad]
  have hiE : l.pos.hasWeight = true → inCov.getE l.name = .ok l.A := fun hh => by simp [Dict.getE, hin hh]
  unfold Layer.Fits at hfit
  unfold Layer.blocks
  cases hp : l.pos with
  | both w b =>
    simp only [hp] at hfit hpos hiE ⊢
    have hw : w < Xs.length := hpos w (by simp [LayerPos.positions])
    have hb : b < Xs.length := hpos b (by simp [LayerPos.positions])
    have hiE := hiE rfl
    cases sep with
    | true =>
      obtain ⟨u, hu, huw⟩ := weight_writes shapes K Xs hX l w hw hfit.1 (by simpa using hfit.2.2)
      obtain ⟨v, hv, hvw⟩ := bias_writes shapes K Xs hX l b hb hfit.2.1
      refine ⟨[(w, u), (b, v)], ?_, huw.append hvw⟩
      simp [layerProduct, LayerPos.dict, pyMapM, listGet_ok _ _ hw, listGet_ok _ _ hb, hgE, hiE, hu, hv, bind,
        Except.bind]
    | false =>
      obtain ⟨w', b', hok, hws⟩ := joint_writes shapes K Xs hX l w b hw hb hfit.1 hfit.2.1 (by simpa using hfit.2.2)
      refine ⟨[(w, w'), (b, b')], ?_, hws⟩
      have h1 : Dict.get [("weight", w), ("bias", b)] "weight" = some w := rfl
      have h2 : Dict.get [("weight", w), ("bias", b)] "bias" = some b := by
        simp [Dict.get, List.lookup]
      simp only [layerProduct, LayerPos.dict, h1, h2, listGet_ok _ _ hw, listGet_ok _ _ hb, hgE, hiE, hok, bind,
        Except.bind]
  | weight w =>
    simp only [hp] at hfit hpos hiE ⊢
    have hw : w < Xs.length := hpos w (by simp [LayerPos.positions])
    have hiE := hiE rfl
    obtain ⟨u, hu, huw⟩ := weight_writes shapes K Xs hX l w hw hfit.1 hfit.2
    refine ⟨[(w, u)], ?_, huw⟩
    have h2 : Dict.get [("weight", w)] "bias" = none := by simp [Dict.get, List.lookup]
    cases sep <;>
      simp [layerProduct, LayerPos.dict, h2, pyMapM, listGet_ok _ _ hw, hgE, hiE, hu, bind, Except.bind]
  | bias b =>
    simp only [hp] at hfit hpos ⊢
    have hb : b < Xs.length := hpos b (by simp [LayerPos.positions])
    obtain ⟨v, hv, hvw⟩ := bias_writes shapes K Xs hX l b hb hfit
    refine ⟨[(b, v)], ?_, hvw⟩
    have h1 : Dict.get [("bias", b)] "weight" = none := by simp [Dict.get, List.lookup]
    cases sep <;>
      simp [layerProduct, LayerPos.dict, h1, pyMapM, listGet_ok _ _ hb, hgE, hv, bind, Except.bind]

theorem layers_writes (sep : Bool) (shapes : List (List Nat)) (inCov gradCov : Dict (Factor α)) (K : Nat)
    (Xs : List (Tensor α)) (hX : HasShapes Xs shapes K) (layers : List (Layer α))
    (hfit : ∀ l ∈ layers, l.Fits sep shapes)
    (hpos : ∀ l ∈ layers, ∀ p ∈ l.pos.positions, p < Xs.length)
    (hin : ∀ l ∈ layers, l.pos.hasWeight = true → inCov.get l.name = some l.A)
    (hgrad : ∀ l ∈ layers, gradCov.get l.name = some l.B) :
    ∃ ws, pyMapM (fun e : String × Dict Nat => layerProduct sep inCov gradCov Xs e.1 e.2)
        (layers.map fun l => (l.name, l.pos.dict)) = .ok ws ∧
      LayerWrites shapes K (flatData Xs) (kfacBlocks sep shapes layers)
        (layers.flatMap fun l => l.pos.positions) ws.flatten := by
  induction layers with
  | nil => exact ⟨[], rfl, rfl, by simp, by simp [kfacBlocks]⟩
  | cons l ls ih =>
    obtain ⟨ws, hws, hw⟩ := ih (fun m hm => hfit m (by simp [hm])) (fun m hm => hpos m (by simp [hm]))
      (fun m hm => hin m (by simp [hm])) (fun m hm => hgrad m (by simp [hm]))
    obtain ⟨us, hus, hu⟩ := layer_writes sep shapes inCov gradCov K Xs hX l (hfit l (by simp)) (hpos l (by simp))
      (hin l (by simp)) (hgrad l (by simp))
    refine ⟨us :: ws, ?_, ?_⟩
    · simp only [List.map_cons, pyMapM, hus, hws]
    · rw [List.flatten_cons]
      exact hu.append hw

/-- **C29**: the operator multiplies with the block-diagonal matrix with Kronecker-structured blocks, for all layers,
shapes, factors, both treatments of weight and bias, every number of columns and every `X`. -/
theorem kfac_represents (sep : Bool) (shapes : List (List Nat)) (mapping : Dict (Dict Nat))
    (inCov gradCov : Dict (Factor α)) (layers : List (Layer α))
    (h : KfacLayers sep shapes mapping inCov gradCov layers) (M : Mat α)
    (hM : IsKron (kfacBlocks sep shapes layers) M) :
    Represents (kfacOp shapes sep mapping inCov gradCov) M := by
  intro K Xs hX
  have hX' : HasShapes Xs shapes K := hX
  have hlen := hX'.length
  have htiles := kfac_tiles sep shapes mapping inCov gradCov layers h
  obtain ⟨ws, hws, hfst, hsh, hval⟩ := layers_writes sep shapes inCov gradCov K Xs hX' layers h.fits
    (fun l hl p hp => by
      rw [hlen]
      exact List.mem_range.mp (h.perm.mem_iff.mp (List.mem_flatMap.mpr ⟨l, hl, hp⟩))) h.inCov_get h.gradCov_get
  obtain ⟨Ys, hYs, hYlen, hYget⟩ := assignAll_spec Xs.length ws.flatten (by rw [hfst, hlen]; exact h.perm)
  have hperm : (ws.flatten.map Prod.fst).Perm (List.range shapes.length) := by rw [hfst]; exact h.perm
  have hY : HasShapes Ys shapes K := by
    have hshape : ∀ p (hp : p < Ys.length), (Ys[p]).shape = shapes.getD p [] ++ [K] ∧ (Ys[p]).WF := by
      intro p hp
      have hp' : p ∈ ws.flatten.map Prod.fst := hperm.mem_iff.mpr (List.mem_range.mpr (by omega))
      obtain ⟨⟨q, t⟩, hqt, rfl⟩ := List.mem_map.mp hp'
      have h1 := hYget q t hqt
      rw [List.getElem?_eq_getElem hp, Option.some.injEq] at h1
      simp only at h1 ⊢
      rw [h1]
      exact hsh q t hqt
    constructor
    · refine List.ext_getElem (by simp; omega) fun p hp hp' => ?_
      simp only [List.length_map] at hp hp'
      simp only [List.getElem_map]
      rw [(hshape p hp).1]
      simp [hp']
    · intro t ht
      obtain ⟨p, hp, rfl⟩ := List.mem_iff_getElem.mp ht
      exact (hshape p hp).2
  refine ⟨Ys, ?_, hY, ?_, ?_⟩
  · show kfacMatmat sep mapping inCov gradCov Xs = .ok Ys
    unfold kfacMatmat
    rw [h.mapping_eq, hws]
    exact hYs
  · exact hY.flatData_length
  · intro r hr k hk
    have hr' : r < (shapes.map List.prod).sum := hr
    obtain ⟨x, hx, -⟩ := htiles.2 r hr'
    have hsum : ∑ c ∈ Finset.range (kfacOp shapes sep mapping inCov gradCov).ncols,
        M r c * (flatData Xs).getD (c * K + k) 0 =
        ∑ y : KIdx (kfacBlocks sep shapes layers), x.entry y * (flatData Xs).getD (y.pos * K + k) 0 := by
      rw [show (kfacOp shapes sep mapping inCov gradCov).ncols = (shapes.map List.prod).sum from rfl, htiles.sum_eq]
      refine Finset.sum_congr rfl fun y _ => ?_
      rw [← hM x y, hx]
    rw [hsum, KIdx.sum_entry x fun c => (flatData Xs).getD (c * K + k) 0]
    obtain ⟨p, t, q, hpt, hq, hidx, hv⟩ := hval _ (List.getElem_mem x.1.2) x.2.1 x.2.1.2 x.2.2 x.2.2.2 k hk
    have hpos : r = offset shapes p + q := by rw [← hx]; exact hidx
    have hp : p < Ys.length := by
      have := hperm.mem_iff.mp (List.mem_map.mpr ⟨(p, t), hpt, rfl⟩)
      have := List.mem_range.mp this
      simp only at this
      omega
    have hYp : Ys[p] = t := by
      have h1 := hYget p t hpt
      rwa [List.getElem?_eq_getElem hp, Option.some.injEq] at h1
    rw [hpos, flatData_offset Ys shapes K hY p hp q k hq hk, hYp]
    exact hv

/-- **C29** (existence): there is such a matrix, and it is determined by the blocks. -/
theorem kfac_matrix_exists (sep : Bool) (shapes : List (List Nat)) (mapping : Dict (Dict Nat))
    (inCov gradCov : Dict (Factor α)) (layers : List (Layer α))
    (h : KfacLayers sep shapes mapping inCov gradCov layers) :
    (∃ M : Mat α, IsKron (kfacBlocks sep shapes layers) M) ∧
    ∀ M M' : Mat α, IsKron (kfacBlocks sep shapes layers) M → IsKron (kfacBlocks sep shapes layers) M' →
      ∀ r < (shapes.map List.prod).sum, ∀ c < (shapes.map List.prod).sum, M r c = M' r c := by
  have ht := kfac_tiles sep shapes mapping inCov gradCov layers h
  refine ⟨⟨_, scatter_isKron _ _ ht⟩, fun M M' hM hM' r hr c hc => ?_⟩
  obtain ⟨x, rfl, -⟩ := ht.2 r hr
  obtain ⟨y, rfl, -⟩ := ht.2 c hc
  rw [hM x y, hM' x y]

end Product

/-- Non-vacuity: a convolution layer with joint bias (weight `(2, 1, 2)`, stored after its bias) and a linear layer
without bias. -/
def exampleInCov : Dict (Factor ℚ) :=
  [("conv", ⟨3, fun i j => i + 2 * j⟩), ("lin", ⟨2, fun i j => i * j + 1⟩)]

/-- Gradient covariances of the example. -/
def exampleGradCov : Dict (Factor ℚ) :=
  [("conv", ⟨2, fun i j => if i = j then 2 else 1⟩), ("lin", ⟨1, fun _ _ => 5⟩)]

/-- Layers of the example. -/
def exampleLayers : List (Layer ℚ) :=
  [⟨"conv", .both 1 0, ⟨3, fun i j => i + 2 * j⟩, ⟨2, fun i j => if i = j then 2 else 1⟩⟩,
   ⟨"lin", .weight 2, ⟨2, fun i j => i * j + 1⟩, ⟨1, fun _ _ => 5⟩⟩]

theorem exampleLayers_kfac : KfacLayers false [[2], [2, 1, 2], [1, 2]]
    [("conv", [("weight", 1), ("bias", 0)]), ("lin", [("weight", 2)])]
    exampleInCov exampleGradCov exampleLayers where
  mapping_eq := rfl
  perm := by decide
  inCov_get := by
    intro l hl _
    simp only [exampleLayers, List.mem_cons, List.not_mem_nil, or_false] at hl
    rcases hl with rfl | rfl <;> rfl
  gradCov_get := by
    intro l hl
    simp only [exampleLayers, List.mem_cons, List.not_mem_nil, or_false] at hl
    rcases hl with rfl | rfl <;> rfl
  fits := by
    intro l hl
    simp only [exampleLayers, List.mem_cons, List.not_mem_nil, or_false] at hl
    rcases hl with rfl | rfl <;> simp [Layer.Fits, wCols]

example : ∃ M : Mat ℚ, Represents (kfacOp [[2], [2, 1, 2], [1, 2]] false
    [("conv", [("weight", 1), ("bias", 0)]), ("lin", [("weight", 2)])] exampleInCov exampleGradCov) M :=
  (kfac_matrix_exists _ _ _ _ _ _ exampleLayers_kfac).1.imp fun M hM =>
    kfac_represents _ _ _ _ _ _ exampleLayers_kfac M hM

end Curvlinops
