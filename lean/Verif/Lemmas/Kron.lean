import Verif.Spec.Kron
import Verif.Lemmas.Tensor
import Verif.Model.KfacProduct
import Mathlib.Data.List.Nodup
import Mathlib.Data.List.GetD
import Mathlib.Algebra.BigOperators.Fin
import Mathlib.Algebra.BigOperators.Ring.Finset

/-!
# Lemmas on tiles, offsets and the KFAC product
-/

namespace Curvlinops

variable {α : Type _}

/-! ## Tiles from permutations -/

/-- All coordinates of a block. -/
def KBlock.coords (b : KBlock α) : List Nat := (List.range b.rows).flatMap fun i => (List.range b.cols).map (b.idx i)

theorem KBlock.idx_inj {b : KBlock α} (h : b.coords.Nodup) {i i' j j' : Nat} (hi : i < b.rows) (hi' : i' < b.rows)
    (hj : j < b.cols) (hj' : j' < b.cols) (he : b.idx i j = b.idx i' j') : i = i' ∧ j = j' := by
  rw [KBlock.coords, List.nodup_flatMap] at h
  obtain ⟨h1, h2⟩ := h
  have hii : i = i' := by
    by_contra hne
    have hmem : b.idx i j ∈ (List.range b.cols).map (b.idx i) := List.mem_map.mpr ⟨j, List.mem_range.mpr hj, rfl⟩
    have hmem' : b.idx i j ∈ (List.range b.cols).map (b.idx i') :=
      List.mem_map.mpr ⟨j', List.mem_range.mpr hj', he.symm⟩
    rw [List.pairwise_iff_getElem] at h2
    rcases lt_or_gt_of_ne hne with hlt | hlt
    · have := h2 i i' (by simpa) (by simpa) hlt
      simp only [Function.onFun, List.getElem_range] at this
      exact this hmem hmem'
    · have := h2 i' i (by simpa) (by simpa) hlt
      simp only [Function.onFun, List.getElem_range] at this
      exact this hmem' hmem
  subst hii
  exact ⟨rfl, List.inj_on_of_nodup_map (h1 i (List.mem_range.mpr hi)) (List.mem_range.mpr hj) (List.mem_range.mpr hj')
    he⟩

theorem KBlock.mem_coords {b : KBlock α} {r : Nat} :
    r ∈ b.coords ↔ ∃ i < b.rows, ∃ j < b.cols, b.idx i j = r := by
  simp [KBlock.coords]

theorem tiles_of_perm (bs : List (KBlock α)) (N : Nat) (h : (bs.flatMap KBlock.coords).Perm (List.range N)) :
    Tiles bs N := by
  have hnd : (bs.flatMap KBlock.coords).Nodup := h.nodup_iff.mpr List.nodup_range
  have hmem : ∀ x : KIdx bs, x.pos ∈ (bs[x.1]).coords := fun x =>
    KBlock.mem_coords.mpr ⟨x.2.1, x.2.1.2, x.2.2, x.2.2.2, rfl⟩
  refine ⟨fun x => ?_, fun r hr => ?_⟩
  · have : x.pos ∈ bs.flatMap KBlock.coords :=
      List.mem_flatMap.mpr ⟨bs[x.1], List.getElem_mem _, hmem x⟩
    exact List.mem_range.mp (h.mem_iff.mp this)
  · have : r ∈ bs.flatMap KBlock.coords := h.mem_iff.mpr (List.mem_range.mpr hr)
    obtain ⟨b, hb, hrb⟩ := List.mem_flatMap.mp this
    obtain ⟨l, hl, rfl⟩ := List.mem_iff_getElem.mp hb
    obtain ⟨i, hi, j, hj, rfl⟩ := KBlock.mem_coords.mp hrb
    refine ⟨⟨⟨l, hl⟩, ⟨i, hi⟩, ⟨j, hj⟩⟩, rfl, ?_⟩
    intro y hy
    rw [List.nodup_flatMap] at hnd
    obtain ⟨h1, h2⟩ := hnd
    have hll : y.1.1 = l := by
      by_contra hne
      rw [List.pairwise_iff_getElem] at h2
      have hym := hmem y
      rw [hy] at hym
      rcases lt_or_gt_of_ne hne with hlt | hlt
      · exact h2 y.1.1 l y.1.2 hl hlt hym hrb
      · exact h2 l y.1.1 hl y.1.2 hlt hrb hym
    obtain ⟨⟨l', hl'⟩, ⟨i', hi'⟩, ⟨j', hj'⟩⟩ := y
    simp only at hll
    subst hll
    obtain ⟨rfl, rfl⟩ := KBlock.idx_inj (h1 _ (List.getElem_mem hl)) hi' hi hj' hj hy
    rfl

/-- The matrix given by its blocks. -/
def scatter [NonUnitalNonAssocSemiring α] (bs : List (KBlock α)) : Mat α := fun r c =>
  ∑ x : KIdx bs, ∑ y : KIdx bs, if x.pos = r ∧ y.pos = c then x.entry y else 0

theorem Tiles.pos_inj {bs : List (KBlock α)} {N : Nat} (h : Tiles bs N) {x y : KIdx bs} (he : x.pos = y.pos) :
    x = y := (h.2 x.pos (h.1 x)).unique rfl he.symm

theorem scatter_isKron [NonUnitalNonAssocSemiring α] (bs : List (KBlock α)) (N : Nat) (h : Tiles bs N) :
    IsKron bs (scatter bs) := by
  intro x y
  unfold scatter
  rw [Finset.sum_eq_single x, Finset.sum_eq_single y]
  · simp
  · intro z _ hz
    rw [if_neg]
    exact fun hh => hz (h.pos_inj hh.2)
  · simp
  · intro z _ hz
    refine Finset.sum_eq_zero fun w _ => if_neg fun hh => hz (h.pos_inj hh.1)
  · simp

/-- A tiling turns sums over coordinates into sums over block entries. -/
theorem Tiles.sum_eq {β : Type _} [AddCommMonoid β] {bs : List (KBlock α)} {N : Nat} (h : Tiles bs N) (f : Nat → β) :
    ∑ r ∈ Finset.range N, f r = ∑ x : KIdx bs, f x.pos := by
  symm
  refine Finset.sum_bij (fun x _ => x.pos) (fun x _ => Finset.mem_range.mpr (h.1 x))
    (fun x _ y _ he => h.pos_inj he) (fun r hr => ?_) fun x _ => rfl
  obtain ⟨x, hx, -⟩ := h.2 r (Finset.mem_range.mp hr)
  exact ⟨x, Finset.mem_univ x, hx⟩

theorem KIdx.sum_entry [NonUnitalNonAssocSemiring α] {bs : List (KBlock α)} (x : KIdx bs) (v : Nat → α) :
    ∑ y : KIdx bs, x.entry y * v y.pos =
      ∑ i ∈ Finset.range (bs[x.1]).rows, ∑ j ∈ Finset.range (bs[x.1]).cols,
        (bs[x.1]).B x.2.1 i * (bs[x.1]).A j x.2.2 * v ((bs[x.1]).idx i j) := by
  rw [Fintype.sum_sigma, Finset.sum_eq_single x.1]
  · rw [Fintype.sum_prod_type, Finset.sum_range]
    refine Finset.sum_congr rfl fun i _ => ?_
    rw [Finset.sum_range]
    refine Finset.sum_congr rfl fun j _ => ?_
    simp [KIdx.entry, KIdx.pos]
  · intro l _ hl
    refine Finset.sum_eq_zero fun z _ => ?_
    simp [KIdx.entry, Ne.symm hl]
  · simp

/-! ## Offsets -/

/-- Coordinates of parameter `p`. -/
def posCoords (shapes : List (List Nat)) (p : Nat) : List Nat :=
  (List.range (shapes.getD p []).prod).map (offset shapes p + ·)

theorem range_flatMap_posCoords (shapes : List (List Nat)) :
    (List.range shapes.length).flatMap (posCoords shapes) = List.range (shapes.map List.prod).sum := by
  induction shapes with
  | nil => rfl
  | cons s ss ih =>
    rw [List.length_cons, List.range_succ_eq_map, List.flatMap_cons, List.flatMap_map]
    have h0 : posCoords (s :: ss) 0 = List.range s.prod := by simp [posCoords, offset]
    have hs : ∀ p, posCoords (s :: ss) (p + 1) = (posCoords ss p).map (s.prod + ·) := by
      intro p
      simp [posCoords, offset, Function.comp_def, Nat.add_assoc]
    simp only [Nat.succ_eq_add_one, hs, h0]
    rw [List.map_cons, List.sum_cons, List.range_add, ← ih, List.map_flatMap]

theorem flatMap_range_mul (I J o : Nat) :
    ((List.range I).flatMap fun i => (List.range J).map fun j => o + (i * J + j)) =
      (List.range (I * J)).map (o + ·) := by
  induction I with
  | zero => simp
  | succ I ih =>
    rw [List.range_succ, List.flatMap_append, ih, Nat.succ_mul, List.range_add, List.map_append]
    simp
    intro a _
    omega

theorem perm_flatMap_concat {β γ : Type _} (l : List β) (f : β → List γ) (g : β → γ) :
    (l.flatMap fun b => f b ++ [g b]).Perm (l.flatMap f ++ l.map g) := by
  induction l with
  | nil => simp
  | cons b l ih =>
    simp only [List.flatMap_cons, List.map_cons]
    have : (f b ++ [g b] ++ l.flatMap fun b => f b ++ [g b]).Perm
        (f b ++ ([g b] ++ (l.flatMap f ++ l.map g))) := by
      rw [List.append_assoc]
      exact (List.Perm.refl _).append ((List.Perm.refl _).append ih)
    refine this.trans ?_
    rw [List.append_assoc]
    refine (List.Perm.refl _).append ?_
    simp only [List.cons_append, List.nil_append]
    exact List.perm_middle.symm

theorem flatData_offset [Zero α] (ts : List (Tensor α)) (shapes : List (List Nat)) (K : Nat) (h : HasShapes ts shapes K)
    (p : Nat) (hp : p < ts.length) (i k : Nat) (hi : i < (shapes.getD p []).prod) (hk : k < K) :
    (flatData ts).getD ((offset shapes p + i) * K + k) 0 = (ts[p]).data.getD (i * K + k) 0 := by
  induction ts generalizing shapes p with
  | nil => simp at hp
  | cons t ts ih =>
    rcases shapes with _ | ⟨s, ss⟩
    · have := h.length; simp at this
    obtain ⟨⟨hs, hwf⟩, hrest⟩ := hasShapes_cons.mp h
    have hlen : t.data.length = s.prod * K := by rw [hwf, hs]; simp
    rw [flatData_cons]
    cases p with
    | zero =>
      simp only [offset, List.take_zero, List.map_nil, List.sum_nil, Nat.zero_add, List.getElem_cons_zero]
      simp only [List.getD_cons_zero] at hi
      rw [List.getD_append _ _ _ _ (by rw [hlen]; exact flat_index_lt hi hk)]
    | succ p =>
      simp only [List.getElem_cons_succ]
      have hi' : i < (ss.getD p []).prod := by simpa using hi
      rw [← ih ss hrest p (by simpa using hp) hi']
      have ho : offset (s :: ss) (p + 1) = s.prod + offset ss p := by simp [offset]
      have he : (offset (s :: ss) (p + 1) + i) * K + k = s.prod * K + ((offset ss p + i) * K + k) := by
        rw [ho]; ring
      rw [he, List.getD_append_right _ _ _ _ (by omega), hlen]
      congr 1
      omega

/-! ## Products -/

theorem getD_map_range [Zero α] (n : Nat) (f : Nat → α) (m : Nat) (h : m < n) :
    ((List.range n).map f).getD m 0 = f m := by
  simp [h]

theorem idx3_div (i j k J K : Nat) (hj : j < J) (hk : k < K) : ((i * J + j) * K + k) / (J * K) = i := by
  rw [Nat.mul_comm J K, ← Nat.div_div_eq_div_mul]
  have h1 : ((i * J + j) * K + k) / K = i * J + j := by
    rw [Nat.mul_comm, Nat.mul_add_div (by omega), Nat.div_eq_of_lt hk, Nat.add_zero]
  rw [h1, Nat.mul_comm, Nat.mul_add_div (by omega), Nat.div_eq_of_lt hj, Nat.add_zero]

theorem idx2_div (i k K : Nat) (hk : k < K) : (i * K + k) / K = i := by
  rw [Nat.mul_comm, Nat.mul_add_div (by omega), Nat.div_eq_of_lt hk, Nat.add_zero]

theorem idx2_mod (i k K : Nat) (hk : k < K) : (i * K + k) % K = k := by
  rw [Nat.mul_comm, Nat.mul_add_mod, Nat.mod_eq_of_lt hk]

theorem idx3_lt {I J K i j k : Nat} (hi : i < I) (hj : j < J) (hk : k < K) : (i * J + j) * K + k < I * (J * K) := by
  rw [← Nat.mul_assoc]
  exact flat_index_lt (flat_index_lt hi hj) hk

variable [NonUnitalSemiring α]

/-- Left product, for a tensor seen as `(I, R, K)`. -/
theorem mulLeft_spec (B : Factor α) (t : Tensor α) (I : Nat) (rest : List Nat) (hs : t.shape = I :: rest)
    (hB : B.dim = I) :
    ∃ u, mulLeft B t = .ok u ∧ u.shape = t.shape ∧ u.WF ∧
      ∀ i < I, ∀ r < rest.prod, u.data.getD (i * rest.prod + r) 0 =
        ∑ i' ∈ Finset.range I, B.mat i i' * t.data.getD (i' * rest.prod + r) 0 := by
  subst hB
  simp only [mulLeft, hs, if_true]
  refine ⟨_, rfl, rfl, by simp [Tensor.WF], fun i hi r hr => ?_⟩
  rw [getD_map_range _ _ _ (flat_index_lt hi hr)]
  simp only [idx2_div _ _ _ hr, idx2_mod _ _ _ hr]

theorem mulRight_spec (A : Factor α) (t : Tensor α) (I J K : Nat) (hs : t.shape = [I, J, K]) (hA : A.dim = J) :
    ∃ u, mulRight A t = .ok u ∧ u.shape = [I, J, K] ∧ u.WF ∧
      ∀ i < I, ∀ j < J, ∀ k < K, u.data.getD ((i * J + j) * K + k) 0 =
        ∑ j' ∈ Finset.range J, t.data.getD ((i * J + j') * K + k) 0 * A.mat j' j := by
  subst hA
  simp only [mulRight, hs, if_true]
  refine ⟨_, rfl, rfl, by simp [Tensor.WF], fun i hi j hj k hk => ?_⟩
  rw [getD_map_range _ _ _ (idx3_lt hi hj hk)]
  simp only [idx3_div _ _ _ _ _ hj hk, idx2_div _ _ _ hk, idx2_mod _ _ _ hk, idx2_mod _ _ _ hj]
  refine Finset.sum_congr rfl fun j' _ => ?_
  congr 2
  ring

omit [NonUnitalSemiring α] in
theorem flattenMid_spec (t : Tensor α) (I : Nat) (mid : List Nat) (K : Nat) (hs : t.shape = I :: (mid ++ [K])) :
    flattenMid t = .ok ⟨[I, mid.prod, K], t.data⟩ := by
  unfold flattenMid
  rw [hs]
  rcases mid with _ | ⟨a, mid⟩
  · simp
  · have h1 : (a :: (mid ++ [K])).dropLast = a :: mid := by
      rw [← List.cons_append, List.dropLast_concat]
    have h2 : (a :: (mid ++ [K])).getLastD 0 = K := by
      rw [← List.cons_append, List.getLastD_concat]
    simp only [List.cons_append, h1, h2]

/-- Product with a weight, entry-wise. -/
theorem weightProduct_spec (A B : Factor α) (t : Tensor α) (I : Nat) (mid : List Nat) (K : Nat)
    (hs : t.shape = I :: (mid ++ [K])) (hA : A.dim = mid.prod) (hB : B.dim = I) :
    ∃ u, weightProduct A B t = .ok u ∧ u.shape = t.shape ∧ u.WF ∧
      ∀ i < I, ∀ j < mid.prod, ∀ k < K, u.data.getD ((i * mid.prod + j) * K + k) 0 =
        ∑ i' ∈ Finset.range I, ∑ j' ∈ Finset.range mid.prod,
          B.mat i i' * (t.data.getD ((i' * mid.prod + j') * K + k) 0 * A.mat j' j) := by
  obtain ⟨u, hu, hus, huwf, hue⟩ := mulRight_spec A ⟨[I, mid.prod, K], t.data⟩ I mid.prod K rfl hA
  obtain ⟨v, hv, hvs, hvwf, hve⟩ := mulLeft_spec B u I [mid.prod, K] hus hB
  have hprod : t.shape.prod = v.shape.prod := by rw [hvs, hus, hs]; simp
  refine ⟨⟨t.shape, v.data⟩, ?_, rfl, ?_, fun i hi j hj k hk => ?_⟩
  · unfold weightProduct
    rw [flattenMid_spec t I mid K hs]
    simp only [bind, Except.bind, hu, hv, Tensor.reshape, hprod, if_true]
  · rw [Tensor.WF, hprod]; exact hvwf
  · have hr : j * K + k < [mid.prod, K].prod := by simpa using flat_index_lt hj hk
    have := hve i hi (j * K + k) hr
    have e : ∀ i', i' * [mid.prod, K].prod + (j * K + k) = (i' * mid.prod + j) * K + k := fun i' => by
      simp; ring
    simp only [e] at this
    rw [this]
    refine Finset.sum_congr rfl fun i' hi' => ?_
    rw [hue i' (Finset.mem_range.mp hi') j hj k hk, Finset.mul_sum]

/-- Product with a jointly treated weight and bias. -/
theorem jointProduct_spec (A B : Factor α) (w b : Tensor α) (I : Nat) (mid : List Nat) (K : Nat)
    (hw : w.shape = I :: (mid ++ [K])) (hb : b.shape = [I, K]) (hA : A.dim = mid.prod + 1) (hB : B.dim = I) :
    ∃ w' b', jointProduct A B w b = .ok (w', b') ∧ w'.shape = w.shape ∧ w'.WF ∧ b'.shape = b.shape ∧ b'.WF ∧
      ∀ M : Nat → Nat → Nat → α,
        (∀ i < I, ∀ k < K, (∀ j < mid.prod, M i j k = w.data.getD ((i * mid.prod + j) * K + k) 0) ∧
          M i mid.prod k = b.data.getD (i * K + k) 0) →
        ∀ i < I, ∀ k < K,
          (∀ j < mid.prod, w'.data.getD ((i * mid.prod + j) * K + k) 0 =
            ∑ i' ∈ Finset.range I, ∑ j' ∈ Finset.range (mid.prod + 1), B.mat i i' * M i' j' k * A.mat j' j) ∧
          b'.data.getD (i * K + k) 0 =
            ∑ i' ∈ Finset.range I, ∑ j' ∈ Finset.range (mid.prod + 1),
              B.mat i i' * M i' j' k * A.mat j' mid.prod := by
  set J := mid.prod with hJ
  obtain ⟨m, hm, hms, hme⟩ : ∃ m, joinBias ⟨[I, J, K], w.data⟩ b = .ok m ∧ m.shape = [I, J + 1, K] ∧
      ∀ i < I, ∀ j < J + 1, ∀ k < K, m.data.getD ((i * (J + 1) + j) * K + k) 0 =
        if j < J then w.data.getD ((i * J + j) * K + k) 0 else b.data.getD (i * K + k) 0 := by
    simp only [joinBias, hb, if_true]
    refine ⟨_, rfl, rfl, fun i hi j hj k hk => ?_⟩
    rw [getD_map_range _ _ _ (idx3_lt hi hj hk)]
    simp only [idx3_div _ _ _ _ _ hj hk, idx2_div _ _ _ hk, idx2_mod _ _ _ hk, idx2_mod _ _ _ hj]
    split_ifs
    · congr 1; ring
    · rfl
  obtain ⟨u, hu, hus, huwf, hue⟩ := mulLeft_spec B m I [J + 1, K] hms hB
  rw [hms] at hus
  obtain ⟨v, hv, hvs, hvwf, hve⟩ := mulRight_spec A u I (J + 1) K hus hA
  have hsp : splitBias J v = .ok (⟨[I, J, K], (List.range (I * (J * K))).map fun n =>
          v.data.getD ((n / (J * K)) * ((J + 1) * K) + (n / K % J) * K + n % K) 0⟩,
        ⟨[I, K], (List.range (I * K)).map fun n => v.data.getD ((n / K) * ((J + 1) * K) + J * K + n % K) 0⟩) := by
    simp [splitBias, hvs]
  have hprod : w.shape.prod = [I, J, K].prod := by rw [hw, hJ]; simp
  refine ⟨⟨w.shape, (List.range (I * (J * K))).map fun n =>
          v.data.getD ((n / (J * K)) * ((J + 1) * K) + (n / K % J) * K + n % K) 0⟩,
      ⟨[I, K], (List.range (I * K)).map fun n => v.data.getD ((n / K) * ((J + 1) * K) + J * K + n % K) 0⟩,
      ?_, rfl, ?_, hb.symm, ?_, ?_⟩
  · unfold jointProduct
    rw [flattenMid_spec w I mid K hw, ← hJ]
    simp only [bind, Except.bind, hm, hu, hv, Tensor.reshape, hprod, List.getD_cons_succ, List.getD_cons_zero, hsp,
      if_true]
  · rw [Tensor.WF, hprod]; simp
  · simp [Tensor.WF]
  · intro M hM i hi k hk
    have key : ∀ j < J + 1, v.data.getD ((i * (J + 1) + j) * K + k) 0 =
        ∑ i' ∈ Finset.range I, ∑ j' ∈ Finset.range (J + 1), B.mat i i' * M i' j' k * A.mat j' j := by
      intro j hj
      rw [hve i hi j hj k hk, Finset.sum_comm]
      refine Finset.sum_congr rfl fun j' hj' => ?_
      have hj' := Finset.mem_range.mp hj'
      have hr : j' * K + k < [J + 1, K].prod := by simpa using flat_index_lt hj' hk
      have := hue i hi (j' * K + k) hr
      have e : ∀ i', i' * [J + 1, K].prod + (j' * K + k) = (i' * (J + 1) + j') * K + k := fun i' => by
        simp; ring
      simp only [e] at this
      rw [this, Finset.sum_mul]
      refine Finset.sum_congr rfl fun i' hi' => ?_
      have hi' := Finset.mem_range.mp hi'
      rw [hme i' hi' j' hj' k hk]
      congr 2
      split_ifs with hlt
      · exact ((hM i' hi' k hk).1 j' hlt).symm
      · have : j' = J := by omega
        subst this
        exact ((hM i' hi' k hk).2).symm
    constructor
    · intro j hj
      rw [getD_map_range _ _ _ (idx3_lt hi hj hk)]
      simp only [idx3_div _ _ _ _ _ hj hk, idx2_div _ _ _ hk, idx2_mod _ _ _ hk, idx2_mod _ _ _ hj]
      rw [← key j (by omega)]
      congr 1
      ring
    · rw [getD_map_range _ _ _ (flat_index_lt hi hk)]
      simp only [idx2_div _ _ _ hk, idx2_mod _ _ _ hk]
      rw [← key J (by omega)]
      congr 1
      ring

/-! ## Assignments -/

theorem foldl_set_length {β : Type _} (ws : List (Nat × β)) (l : List (Option β)) :
    (ws.foldl (fun KM w => KM.set w.1 (some w.2)) l).length = l.length := by
  induction ws generalizing l with
  | nil => rfl
  | cons w ws ih => rw [List.foldl_cons, ih, List.length_set]

theorem foldl_set_notMem {β : Type _} (ws : List (Nat × β)) (l : List (Option β)) (p : Nat)
    (h : p ∉ ws.map Prod.fst) : (ws.foldl (fun KM w => KM.set w.1 (some w.2)) l)[p]? = l[p]? := by
  induction ws generalizing l with
  | nil => rfl
  | cons w ws ih =>
    simp only [List.map_cons, List.mem_cons, not_or] at h
    rw [List.foldl_cons, ih _ h.2, List.getElem?_set_ne (Ne.symm h.1)]

theorem foldl_set_mem {β : Type _} (ws : List (Nat × β)) (l : List (Option β)) (p : Nat) (t : β)
    (hnd : (ws.map Prod.fst).Nodup) (h : (p, t) ∈ ws) (hp : p < l.length) :
    (ws.foldl (fun KM w => KM.set w.1 (some w.2)) l)[p]? = some (some t) := by
  induction ws generalizing l with
  | nil => simp at h
  | cons w ws ih =>
    rw [List.map_cons, List.nodup_cons] at hnd
    rw [List.foldl_cons]
    rcases List.mem_cons.mp h with rfl | h
    · rw [foldl_set_notMem _ _ _ hnd.1, List.getElem?_set_self hp]
    · exact ih _ hnd.2 h (by simpa using hp)

omit [NonUnitalSemiring α] in
theorem allSome_ok {β : Type _} (l : List (Option β)) (ts : List β) (h : l = ts.map some) : allSome l = .ok ts := by
  subst h
  induction ts with
  | nil => rfl
  | cons t ts ih => simp [allSome, ih]

/-- If every position is assigned exactly once, the result holds the assigned values. -/
theorem assignAll_spec {β : Type _} (n : Nat) (ws : List (Nat × β)) (h : (ws.map Prod.fst).Perm (List.range n)) :
    ∃ ts, allSome (assignAll n ws) = .ok ts ∧ ts.length = n ∧ ∀ p t, (p, t) ∈ ws → ts[p]? = some t := by
  have hnd : (ws.map Prod.fst).Nodup := h.nodup_iff.mpr List.nodup_range
  have hall : ∀ p < n, ∃ t, (p, t) ∈ ws := fun p hp => by
    have := h.mem_iff.mpr (List.mem_range.mpr hp)
    obtain ⟨⟨q, t⟩, hw, rfl⟩ := List.mem_map.mp this
    exact ⟨t, hw⟩
  choose f hf using fun p : Fin n => hall p.1 p.2
  refine ⟨List.ofFn f, allSome_ok _ _ ?_, by simp, fun p t hw => ?_⟩
  · refine List.ext_getElem? fun p => ?_
    by_cases hp : p < n
    · rw [assignAll, foldl_set_mem ws _ p (f ⟨p, hp⟩) hnd (hf ⟨p, hp⟩) (by simpa using hp)]
      simp [hp]
    · rw [List.getElem?_eq_none, List.getElem?_eq_none]
      · simpa using hp
      · rw [assignAll, foldl_set_length]; simpa using hp
  · have hp : p < n := List.mem_range.mp (h.mem_iff.mp (List.mem_map.mpr ⟨(p, t), hw, rfl⟩))
    have he : f ⟨p, hp⟩ = t := by
      have := List.inj_on_of_nodup_map hnd (hf ⟨p, hp⟩) hw rfl
      simpa using this
    simp [hp, he]

end Curvlinops
