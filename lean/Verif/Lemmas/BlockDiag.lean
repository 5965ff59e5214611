import Verif.Lemmas.Kron
import Verif.Lemmas.Jacobian
import Verif.Spec.KfacLayers

/-!
# Block-diagonal matrices whose blocks sit at arbitrary coordinates

Generalizes the Kronecker-structured blocks: blocks are records of any type `β` with a geometry `g` (rows, columns and
coordinates of a `KBlock`, whose matrices are not used) and entries `ent`.
-/

namespace Curvlinops

variable {α β γ : Type _}

/-- The blocks' coordinates are exactly those of a vector of dimension `N`. -/
def GTiles (g : β → KBlock α) (bs : List β) (N : Nat) : Prop :=
  (bs.flatMap fun b => (g b).coords).Perm (List.range N)

/-- `M` is block-diagonal with entries `ent`. -/
def BlockDiag [Zero α] (g : β → KBlock α) (ent : β → Nat → Nat → Nat → Nat → α) (bs : List β) (M : Mat α) : Prop :=
  ∀ l (hl : l < bs.length) l' (hl' : l' < bs.length), ∀ i < (g bs[l]).rows, ∀ j < (g bs[l]).cols,
    ∀ i' < (g bs[l']).rows, ∀ j' < (g bs[l']).cols,
      M ((g bs[l]).idx i j) ((g bs[l']).idx i' j') = if l = l' then ent bs[l] i j i' j' else 0

/-- Entries of a Kronecker-structured block. -/
def kronEnt [Mul α] (b : KBlock α) (i j i' j' : Nat) : α := b.B i i' * b.A j' j

theorem isKron_iff [MulZeroClass α] (bs : List (KBlock α)) (M : Mat α) : IsKron bs M ↔ BlockDiag id kronEnt bs M := by
  constructor
  · intro h l hl l' hl' i hi j hj i' hi' j' hj'
    have := h ⟨⟨l, hl⟩, ⟨i, hi⟩, ⟨j, hj⟩⟩ ⟨⟨l', hl'⟩, ⟨i', hi'⟩, ⟨j', hj'⟩⟩
    simpa [KIdx.pos, KIdx.entry, kronEnt] using this
  · intro h x y
    obtain ⟨⟨l, hl⟩, ⟨i, hi⟩, ⟨j, hj⟩⟩ := x
    obtain ⟨⟨l', hl'⟩, ⟨i', hi'⟩, ⟨j', hj'⟩⟩ := y
    have := h l hl l' hl' i hi j hj i' hi' j' hj'
    simpa [KIdx.pos, KIdx.entry, kronEnt] using this

theorem blockDiag_map [Zero α] (g : β → KBlock α) (ent : β → Nat → Nat → Nat → Nat → α) (f : γ → β) (bs : List γ)
    (M : Mat α) : BlockDiag g ent (bs.map f) M ↔ BlockDiag (fun c => g (f c)) (fun c => ent (f c)) bs M := by
  constructor
  · intro h l hl l' hl' i hi j hj i' hi' j' hj'
    have := h l (by simpa using hl) l' (by simpa using hl') i (by simpa using hi) j (by simpa using hj) i'
      (by simpa using hi') j' (by simpa using hj')
    simpa using this
  · intro h l hl l' hl' i hi j hj i' hi' j' hj'
    have := h l (by simpa using hl) l' (by simpa using hl') i (by simpa using hi) j (by simpa using hj) i'
      (by simpa using hi') j' (by simpa using hj')
    simpa using this

/-- Only the geometry matters. -/
theorem BlockDiag.congr [Zero α] {g g' : β → KBlock α} {ent ent' : β → Nat → Nat → Nat → Nat → α} {bs : List β} {M : Mat α}
    (h : BlockDiag g ent bs M)
    (hg : ∀ b ∈ bs, (g' b).rows = (g b).rows ∧ (g' b).cols = (g b).cols ∧ ∀ i < (g b).rows, ∀ j < (g b).cols,
      (g' b).idx i j = (g b).idx i j)
    (he : ∀ b ∈ bs, ∀ i < (g b).rows, ∀ j < (g b).cols, ∀ i' < (g b).rows, ∀ j' < (g b).cols,
      ent' b i j i' j' = ent b i j i' j') : BlockDiag g' ent' bs M := by
  intro l hl l' hl' i hi j hj i' hi' j' hj'
  obtain ⟨r1, c1, x1⟩ := hg bs[l] (List.getElem_mem hl)
  obtain ⟨r2, c2, x2⟩ := hg bs[l'] (List.getElem_mem hl')
  rw [r1] at hi
  rw [c1] at hj
  rw [r2] at hi'
  rw [c2] at hj'
  rw [x1 i hi j hj, x2 i' hi' j' hj', h l hl l' hl' i hi j hj i' hi' j' hj']
  by_cases hll : l = l'
  · subst hll
    rw [if_pos rfl, if_pos rfl, he _ (List.getElem_mem hl) i hi j hj i' hi' j' hj']
  · rw [if_neg hll, if_neg hll]

section Tiling

variable {g : β → KBlock α} {bs : List β} {N : Nat}

theorem GTiles.toTiles (h : GTiles g bs N) : Tiles (bs.map g) N := by
  refine tiles_of_perm _ _ ?_
  rw [List.flatMap_map]
  exact h

theorem GTiles.lt (h : GTiles g bs N) (l : Nat) (hl : l < bs.length) (i : Nat) (hi : i < (g bs[l]).rows) (j : Nat)
    (hj : j < (g bs[l]).cols) : (g bs[l]).idx i j < N := by
  refine List.mem_range.mp (h.mem_iff.mp (List.mem_flatMap.mpr ⟨bs[l], List.getElem_mem hl, ?_⟩))
  exact KBlock.mem_coords.mpr ⟨i, hi, j, hj, rfl⟩

theorem GTiles.surj (h : GTiles g bs N) (r : Nat) (hr : r < N) :
    ∃ l, ∃ hl : l < bs.length, ∃ i < (g bs[l]).rows, ∃ j < (g bs[l]).cols, (g bs[l]).idx i j = r := by
  obtain ⟨b, hb, hrb⟩ := List.mem_flatMap.mp (h.mem_iff.mpr (List.mem_range.mpr hr))
  obtain ⟨l, hl, rfl⟩ := List.mem_iff_getElem.mp hb
  obtain ⟨i, hi, j, hj, he⟩ := KBlock.mem_coords.mp hrb
  exact ⟨l, hl, i, hi, j, hj, he⟩

theorem GTiles.inj (h : GTiles g bs N) (l l' : Nat) (hl : l < bs.length) (hl' : l' < bs.length) (i j i' j' : Nat)
    (hi : i < (g bs[l]).rows) (hj : j < (g bs[l]).cols) (hi' : i' < (g bs[l']).rows) (hj' : j' < (g bs[l']).cols)
    (he : (g bs[l]).idx i j = (g bs[l']).idx i' j') : l = l' ∧ i = i' ∧ j = j' := by
  have ht := h.toTiles
  have hx : (⟨⟨l, by simpa using hl⟩, ⟨i, by simpa using hi⟩, ⟨j, by simpa using hj⟩⟩ : KIdx (bs.map g)) =
      ⟨⟨l', by simpa using hl'⟩, ⟨i', by simpa using hi'⟩, ⟨j', by simpa using hj'⟩⟩ := by
    refine ht.pos_inj ?_
    simpa [KIdx.pos] using he
  have hll : l = l' := by
    have := congrArg (fun x : KIdx (bs.map g) => x.1.1) hx
    simpa using this
  subst hll
  have hnd : ((g bs[l]).coords).Nodup := by
    have hnd : (bs.flatMap fun b => (g b).coords).Nodup := h.nodup_iff.mpr List.nodup_range
    rw [List.nodup_flatMap] at hnd
    exact hnd.1 _ (List.getElem_mem hl)
  exact ⟨rfl, KBlock.idx_inj hnd hi hi' hj hj' he⟩

/-- Sums over coordinates are sums over block entries. -/
theorem GTiles.sum_eq [AddCommMonoid γ] (h : GTiles g bs N) (f : Nat → γ) :
    ∑ r ∈ Finset.range N, f r =
      ∑ l : Fin bs.length, ∑ i ∈ Finset.range (g bs[l]).rows, ∑ j ∈ Finset.range (g bs[l]).cols, f ((g bs[l]).idx i j) := by
  have hr : ∀ (n : Nat) (f : Nat → γ), ∑ r ∈ Finset.range n, f r = ((List.range n).map f).sum := by
    intro n f
    rw [Finset.sum_range, ← List.sum_ofFn]
    congr 1
    refine List.ext_getElem (by simp) fun i h1 h2 => by simp
  have hfl : ∀ (l : List Nat) (F : Nat → List γ), (l.flatMap F).sum = (l.map fun i => (F i).sum).sum := by
    intro l F
    induction l with
    | nil => rfl
    | cons a l ih => rw [List.flatMap_cons, List.sum_append, ih, List.map_cons, List.sum_cons]
  have hfl' : ∀ (l : List β) (F : β → List γ), (l.flatMap F).sum = (l.map fun i => (F i).sum).sum := by
    intro l F
    induction l with
    | nil => rfl
    | cons a l ih => rw [List.flatMap_cons, List.sum_append, ih, List.map_cons, List.sum_cons]
  rw [hr, ← (h.map f).sum_eq, List.map_flatMap, hfl']
  have hb : ∀ b : β, (((g b).coords).map f).sum =
      ∑ i ∈ Finset.range (g b).rows, ∑ j ∈ Finset.range (g b).cols, f ((g b).idx i j) := by
    intro b
    rw [KBlock.coords, List.map_flatMap, hfl, hr]
    congr 1
    refine List.map_congr_left fun i _ => ?_
    rw [hr, List.map_map]
    rfl
  simp only [hb]
  rw [← List.sum_ofFn]
  congr 1
  refine List.ext_getElem (by simp) fun i h1 h2 => by simp

end Tiling

/-- A block-diagonal matrix applied to a vector. -/
theorem BlockDiag.apply [NonUnitalNonAssocSemiring α] {g : β → KBlock α} {ent : β → Nat → Nat → Nat → Nat → α} {bs : List β}
    {N : Nat} {M : Mat α} (h : BlockDiag g ent bs M) (ht : GTiles g bs N) (l : Nat) (hl : l < bs.length) (i : Nat)
    (hi : i < (g bs[l]).rows) (j : Nat) (hj : j < (g bs[l]).cols) (v : Nat → α) :
    ∑ c ∈ Finset.range N, M ((g bs[l]).idx i j) c * v c =
      ∑ i' ∈ Finset.range (g bs[l]).rows, ∑ j' ∈ Finset.range (g bs[l]).cols,
        ent bs[l] i j i' j' * v ((g bs[l]).idx i' j') := by
  rw [ht.sum_eq, Finset.sum_eq_single (⟨l, hl⟩ : Fin bs.length)]
  · refine Finset.sum_congr rfl fun i' hi' => Finset.sum_congr rfl fun j' hj' => ?_
    have := h l hl l hl i hi j hj i' (Finset.mem_range.mp hi') j' (Finset.mem_range.mp hj')
    rw [if_pos rfl] at this
    exact congrArg (· * v ((g bs[l]).idx i' j')) this
  · intro l' _ hne
    refine Finset.sum_eq_zero fun i' hi' => Finset.sum_eq_zero fun j' hj' => ?_
    have := h l hl l'.1 l'.2 i hi j hj i' (Finset.mem_range.mp hi') j' (Finset.mem_range.mp hj')
    rw [if_neg (fun he => hne (Fin.ext he.symm))] at this
    refine (congrArg (· * v ((g bs[l'.1]).idx i' j')) this).trans ?_
    exact zero_mul _
  · simp

/-- The product of block-diagonal matrices. -/
theorem BlockDiag.mul [NonUnitalNonAssocSemiring α] {g : β → KBlock α} {e₁ e₂ : β → Nat → Nat → Nat → Nat → α} {bs : List β}
    {N : Nat} {M₁ M₂ : Mat α} (h₁ : BlockDiag g e₁ bs M₁) (h₂ : BlockDiag g e₂ bs M₂) (ht : GTiles g bs N) :
    BlockDiag g (fun b i j i'' j'' => ∑ i' ∈ Finset.range (g b).rows, ∑ j' ∈ Finset.range (g b).cols,
      e₁ b i j i' j' * e₂ b i' j' i'' j'') bs (fun r c => ∑ m ∈ Finset.range N, M₁ r m * M₂ m c) := by
  intro l hl l'' hl'' i hi j hj i'' hi'' j'' hj''
  simp only
  rw [h₁.apply ht l hl i hi j hj fun m => M₂ m ((g bs[l'']).idx i'' j'')]
  by_cases hll : l = l''
  · subst hll
    rw [if_pos rfl]
    refine Finset.sum_congr rfl fun i' hi' => Finset.sum_congr rfl fun j' hj' => ?_
    rw [h₂ l hl l hl i' (Finset.mem_range.mp hi') j' (Finset.mem_range.mp hj') i'' hi'' j'' hj'', if_pos rfl]
  · rw [if_neg hll]
    refine Finset.sum_eq_zero fun i' hi' => Finset.sum_eq_zero fun j' hj' => ?_
    rw [h₂ l hl l'' hl'' i' (Finset.mem_range.mp hi') j' (Finset.mem_range.mp hj') i'' hi'' j'' hj'', if_neg hll, mul_zero]

/-- The identity matrix is block-diagonal. -/
theorem blockDiag_one [MulZeroOneClass α] {g : β → KBlock α} {bs : List β} {N : Nat} (ht : GTiles g bs N) :
    BlockDiag g (fun _ i j i' j' => if i = i' ∧ j = j' then (1 : α) else 0) bs (fun r c => if r = c then 1 else 0) := by
  intro l hl l' hl' i hi j hj i' hi' j' hj'
  by_cases he : (g bs[l]).idx i j = (g bs[l']).idx i' j'
  · obtain ⟨rfl, rfl, rfl⟩ := ht.inj l l' hl hl' i j i' j' hi hj hi' hj' he
    simp
  · refine (if_neg he).trans ?_
    by_cases hll : l = l'
    · subst hll
      rw [if_pos rfl]
      refine (if_neg ?_).symm
      rintro ⟨rfl, rfl⟩
      exact he rfl
    · rw [if_neg hll]

/-- The blocks determine the matrix. -/
theorem BlockDiag.unique [Zero α] {g : β → KBlock α} {ent : β → Nat → Nat → Nat → Nat → α} {bs : List β} {N : Nat}
    {M M' : Mat α} (h : BlockDiag g ent bs M) (h' : BlockDiag g ent bs M') (ht : GTiles g bs N) (r c : Nat) (hr : r < N)
    (hc : c < N) : M r c = M' r c := by
  obtain ⟨l, hl, i, hi, j, hj, rfl⟩ := ht.surj r hr
  obtain ⟨l', hl', i', hi', j', hj', rfl⟩ := ht.surj c hc
  rw [h l hl l' hl' i hi j hj i' hi' j' hj', h' l hl l' hl' i hi j hj i' hi' j' hj']

/-- There is a matrix with given blocks. -/
theorem exists_blockDiag [Zero α] {g : β → KBlock α} (ent : β → Nat → Nat → Nat → Nat → α) {bs : List β} {N : Nat}
    (ht : GTiles g bs N) : ∃ M, BlockDiag g ent bs M := by
  classical
  let P : Nat → Nat × Nat × Nat → Prop := fun r x => ∃ hl : x.1 < bs.length, x.2.1 < (g bs[x.1]).rows ∧
    x.2.2 < (g bs[x.1]).cols ∧ (g bs[x.1]).idx x.2.1 x.2.2 = r
  let loc : Nat → Nat × Nat × Nat := fun r => if h : ∃ x, P r x then h.choose else (0, 0, 0)
  have hloc : ∀ l (hl : l < bs.length) i j, i < (g bs[l]).rows → j < (g bs[l]).cols →
      loc ((g bs[l]).idx i j) = (l, i, j) := by
    intro l hl i j hi hj
    have hex : ∃ x, P ((g bs[l]).idx i j) x := ⟨(l, i, j), hl, hi, hj, rfl⟩
    have hx : loc ((g bs[l]).idx i j) = hex.choose := by simp only [loc]; rw [dif_pos hex]
    obtain ⟨hl', hi', hj', he⟩ := hex.choose_spec
    obtain ⟨h1, h2, h3⟩ := ht.inj _ _ hl' hl _ _ _ _ hi' hj' hi hj he
    rw [hx]
    exact Prod.ext h1 (Prod.ext h2 h3)
  refine ⟨fun r c => if (loc r).1 = (loc c).1 then
    (match bs[(loc r).1]? with
    | some b => ent b (loc r).2.1 (loc r).2.2 (loc c).2.1 (loc c).2.2
    | none => 0) else 0, ?_⟩
  intro l hl l' hl' i hi j hj i' hi' j' hj'
  simp only [hloc l hl i j hi hj, hloc l' hl' i' j' hi' hj', List.getElem?_eq_getElem hl]

/-- What assigning tensors to positions has to achieve: tensors of the right shape, and the entries of each block are
those of the block's matrix times the block's part of the input. -/
def GWrites [NonUnitalNonAssocSemiring α] (g : β → KBlock α) (ent : β → Nat → Nat → Nat → Nat → α) (shapes : List (List Nat))
    (K : Nat) (x : List α) (bs : List β) (positions : List Nat) (ws : List (Nat × Tensor α)) : Prop :=
  ws.map Prod.fst = positions ∧ (∀ p t, (p, t) ∈ ws → t.shape = shapes.getD p [] ++ [K] ∧ t.WF) ∧
    ∀ b ∈ bs, ∀ i < (g b).rows, ∀ j < (g b).cols, ∀ k < K, ∃ p t q, (p, t) ∈ ws ∧ q < (shapes.getD p []).prod ∧
      (g b).idx i j = offset shapes p + q ∧ t.data.getD (q * K + k) 0 =
        ∑ i' ∈ Finset.range (g b).rows, ∑ j' ∈ Finset.range (g b).cols,
          ent b i j i' j' * x.getD ((g b).idx i' j' * K + k) 0

theorem GWrites.append [NonUnitalNonAssocSemiring α] {g : β → KBlock α} {ent : β → Nat → Nat → Nat → Nat → α}
    {shapes : List (List Nat)} {K : Nat} {x : List α} {bs bs' : List β} {ps ps' : List Nat} {ws ws' : List (Nat × Tensor α)}
    (h : GWrites g ent shapes K x bs ps ws) (h' : GWrites g ent shapes K x bs' ps' ws') :
    GWrites g ent shapes K x (bs ++ bs') (ps ++ ps') (ws ++ ws') := by
  refine ⟨by rw [List.map_append, h.1, h'.1], ?_, ?_⟩
  · intro p t hpt
    rcases List.mem_append.mp hpt with hpt | hpt
    · exact h.2.1 p t hpt
    · exact h'.2.1 p t hpt
  · intro b hb i hi j hj k hk
    rcases List.mem_append.mp hb with hb | hb
    · obtain ⟨p, t, q, h1, h2⟩ := h.2.2 b hb i hi j hj k hk
      exact ⟨p, t, q, List.mem_append_left _ h1, h2⟩
    · obtain ⟨p, t, q, h1, h2⟩ := h'.2.2 b hb i hi j hj k hk
      exact ⟨p, t, q, List.mem_append_right _ h1, h2⟩

/-- From assignments to products. -/
theorem represents_of_writes [NonUnitalNonAssocSemiring α] (op : LinOp α) (shapes : List (List Nat))
    (hin : op.inShape = shapes) (hout : op.outShape = shapes) (g : β → KBlock α)
    (ent : β → Nat → Nat → Nat → Nat → α) (bs : List β) (ht : GTiles g bs (shapes.map List.prod).sum) (M : Mat α)
    (hM : BlockDiag g ent bs M) (positions : List Nat) (hperm : positions.Perm (List.range shapes.length))
    (h : ∀ K Xs, HasShapes Xs shapes K → ∃ ws Ys, GWrites g ent shapes K (flatData Xs) bs positions ws ∧
      (op.matmat Xs).1 = .ok Ys ∧ Ys.length = shapes.length ∧ ∀ p t, (p, t) ∈ ws → Ys[p]? = some t) :
    Represents op M := by
  intro K Xs hX
  rw [hin] at hX
  obtain ⟨ws, Ys, ⟨hfst, hsh, hval⟩, hok, hYlen, hYget⟩ := h K Xs hX
  have hperm' : (ws.map Prod.fst).Perm (List.range shapes.length) := by rw [hfst]; exact hperm
  have hY : HasShapes Ys shapes K := by
    have hshape : ∀ p (hp : p < Ys.length), (Ys[p]).shape = shapes.getD p [] ++ [K] ∧ (Ys[p]).WF := by
      intro p hp
      have hp' : p ∈ ws.map Prod.fst := hperm'.mem_iff.mpr (List.mem_range.mpr (by omega))
      obtain ⟨⟨q, t⟩, hqt, rfl⟩ := List.mem_map.mp hp'
      have h1 := hYget q t hqt
      rw [List.getElem?_eq_getElem hp, Option.some.injEq] at h1
      simp only at h1 ⊢
      rw [h1]
      exact hsh q t hqt
    constructor
    · refine List.ext_getElem (by simp; omega) fun p hp hp' => ?_
      simp only [List.length_map] at hp hp'
      simp only [List.getElem_map]
      rw [(hshape p hp).1]
      simp [hp']
    · intro t ht
      obtain ⟨p, hp, rfl⟩ := List.mem_iff_getElem.mp ht
      exact (hshape p hp).2
  have hn : op.nrows = (shapes.map List.prod).sum := by rw [LinOp.nrows, LinOp.outFlat, hout]
  have hc : op.ncols = (shapes.map List.prod).sum := by rw [LinOp.ncols, LinOp.inFlat, hin]
  refine ⟨Ys, hok, by rw [hout]; exact hY, ?_, ?_⟩
  · rw [hn]
    exact hY.flatData_length
  · intro r hr k hk
    rw [hn] at hr
    rw [hc]
    obtain ⟨l, hl, i, hi, j, hj, rfl⟩ := ht.surj r hr
    rw [hM.apply ht l hl i hi j hj fun c => (flatData Xs).getD (c * K + k) 0]
    obtain ⟨p, t, q, hpt, hq, hidx, hv⟩ := hval _ (List.getElem_mem hl) i hi j hj k hk
    have hp : p < Ys.length := by
      have := hperm'.mem_iff.mp (List.mem_map.mpr ⟨(p, t), hpt, rfl⟩)
      have := List.mem_range.mp this
      simp only at this
      omega
    have hYp : Ys[p] = t := by
      have h1 := hYget p t hpt
      rwa [List.getElem?_eq_getElem hp, Option.some.injEq] at h1
    rw [hidx, flatData_offset Ys shapes K hY p hp q k hq hk, hYp]
    exact hv

end Curvlinops
