import Verif.Lemmas.Columns
import Verif.Spec.Risk
import Verif.Props.Utils
import Mathlib.Algebra.BigOperators.Ring.Finset
import Mathlib.Algebra.Field.Basic

/-!
# The loop over mini-batches, and the Hessian's loop over blocks
-/

namespace Curvlinops

variable {α : Type _}

/-- A `_matmat_batch` multiplies with the dense matrix `A`. -/
def BatchRepresents [NonUnitalNonAssocSemiring α] (shapes : List (List Nat))
    (f : List (Tensor α) → Py (List (Tensor α))) (A : Mat α) : Prop :=
  ∀ (K : Nat) (M : List (Tensor α)), HasShapes M shapes K →
    ∃ Y, f M = .ok Y ∧ HasShapes Y shapes K ∧
      IsProduct A (total shapes) (total shapes) K (flatData M) (flatData Y)

section loop

variable [DivisionRing α]

omit [DivisionRing α] in
theorem addScaled_spec [Add α] [Mul α] {T C : List (Tensor α)} {shapes : List (List Nat)} {K : Nat} (c : α)
    (hT : HasShapes T shapes K) (hC : HasShapes C shapes K) :
    ∃ T', zipUpdate (fun t u => t.addScaled c u) T C = .ok T' ∧ HasShapes T' shapes K ∧
      flatData T' = List.zipWith (fun x y => x + c * y) (flatData T) (flatData C) := by
  induction T generalizing C shapes with
  | nil =>
    have hs : shapes = [] := List.length_eq_zero_iff.mp hT.length.symm
    subst hs
    exact ⟨[], by simp [zipUpdate], hT, by simp [flatData]⟩
  | cons t ts ih =>
    rcases shapes with _ | ⟨s, ss⟩
    · have := hT.length; simp at this
    rcases C with _ | ⟨u, us⟩
    · have := hC.length; simp at this
    rw [hasShapes_cons] at hT hC
    obtain ⟨ts', e1, e2, e3⟩ := ih hT.2 hC.2
    have hsh : u.shape = t.shape := by rw [hT.1.1, hC.1.1]
    have hlen : t.data.length = u.data.length := by rw [hT.1.2, hC.1.2, hsh]
    refine ⟨⟨t.shape, List.zipWith (fun x y => x + c * y) t.data u.data⟩ :: ts', ?_, ?_, ?_⟩
    · have ht : t.addScaled c u =
          .ok ⟨t.shape, List.zipWith (fun x y => x + c * y) t.data u.data⟩ := by
        simp only [Tensor.addScaled, hsh, if_true]
      simp only [zipUpdate, ht, e1]
    · rw [hasShapes_cons]
      refine ⟨⟨hT.1.1, ?_⟩, e2⟩
      have h2 := hT.1.2
      simp only [Tensor.WF] at h2 ⊢
      rw [List.length_zipWith, ← hlen, h2]; simp
    · rw [flatData_cons, flatData_cons, flatData_cons, e3, List.zipWith_append hlen]

theorem getD_zipWith (c : α) (l m : List α) (h : l.length = m.length) (i : Nat) :
    (List.zipWith (fun x y => x + c * y) l m).getD i 0 = l.getD i 0 + c * m.getD i 0 := by
  simp only [List.getD_eq_getElem?_getD, List.getElem?_zipWith]
  by_cases hi : i < l.length
  · have hm : i < m.length := by omega
    simp [hi, hm]
  · have hm : ¬ i < m.length := by omega
    simp [hi, hm]

theorem matmatLoop_spec {B : Type _} (red : Reduction) (nData : Nat) (bs : B → Nat)
    (f : B → List (Tensor α) → Py (List (Tensor α))) (A : B → Mat α) (shapes : List (List Nat))
    (c : B → α) {K : Nat} {M : List (Tensor α)} (hM : HasShapes M shapes K) :
    ∀ (data : List B), (∀ b ∈ data, BatchRepresents shapes (f b) (A b)) →
      (∀ b ∈ data, normalizationFactor red (bs b) nData = .ok (c b)) →
      ∀ AM : List (Tensor α), HasShapes AM shapes K →
      ∃ Y, matmatLoop red nData bs f M data AM = .ok Y ∧ HasShapes Y shapes K ∧
        ∀ r < total shapes, ∀ k < K, (flatData Y).getD (r * K + k) 0 =
          (flatData AM).getD (r * K + k) 0 + ∑ j ∈ Finset.range (total shapes),
            (data.map fun b => c b * A b r j).sum * (flatData M).getD (j * K + k) 0
  | [], _, _, AM, hAM => ⟨AM, rfl, hAM, by simp⟩
  | b :: data, hf, hc, AM, hAM => by
    obtain ⟨cur, h1, h2, h3⟩ := hf b (by simp) K M hM
    obtain ⟨AM', e1, e2, e3⟩ := addScaled_spec (c b) hAM h2
    obtain ⟨Y, g1, g2, g3⟩ := matmatLoop_spec red nData bs f A shapes c hM data
      (fun b' hb => hf b' (by simp [hb])) (fun b' hb => hc b' (by simp [hb])) AM' e2
    refine ⟨Y, ?_, g2, ?_⟩
    · simp only [matmatLoop, hc b (by simp), h1, e1, g1]
    · intro r hr k hk
      rw [g3 r hr k hk, e3, getD_zipWith _ _ _ (by rw [hAM.flatData_length, h2.flatData_length]),
        h3.2 r hr k hk, add_assoc, Finset.mul_sum, ← Finset.sum_add_distrib]
      congr 1
      refine Finset.sum_congr rfl fun j _ => ?_
      simp only [List.map_cons, List.sum_cons]
      rw [add_mul, mul_assoc]

/-- The product of a curvature operator is the weighted sum of the mini-batch matrices. -/
theorem curvatureOp_represents {B : Type _} (red : Reduction) (nData : Nat) (bs : B → Nat)
    (f : B → List (Tensor α) → Py (List (Tensor α))) (A : B → Mat α) (shapes : List (List Nat))
    (c : B → α) (data : List B) (hf : ∀ b ∈ data, BatchRepresents shapes (f b) (A b))
    (hc : ∀ b ∈ data, normalizationFactor red (bs b) nData = .ok (c b)) :
    Represents (curvatureOp shapes red nData bs f data)
      (fun r j => (data.map fun b => c b * A b r j).sum) := by
  intro K M hM
  obtain ⟨Y, h1, h2, h3⟩ := matmatLoop_spec red nData bs f A shapes c hM data hf hc
    (M.map Tensor.zerosLike) (hasShapes_zeros hM)
  refine ⟨Y, h1, h2, ?_, ?_⟩
  · exact h2.flatData_length
  · intro r hr k hk
    rw [h3 r hr k hk, flat_zeros, zero_add]
    rfl

end loop

/-! ## Blocks -/

theorem prefs_append : ∀ (s t : List (List Nat)) (o : Nat),
    prefs o (s ++ t) = prefs o s ++ prefs (o + total s) t
  | [], t, o => by simp [prefs]
  | a :: s, t, o => by
    simp only [List.cons_append, prefs, total_cons, prefs_append s t, List.cons.injEq, true_and]
    rw [Nat.add_assoc]

theorem prefs_length : ∀ (s : List (List Nat)) (o : Nat), (prefs o s).length = s.length
  | [], _ => rfl
  | a :: s, o => by simp [prefs, prefs_length s]

theorem splitList_eq_chunks {β : Type _} (x : List β) (ns : List Nat) (h : ns.sum = x.length) :
    splitList x (ns.map Int.ofNat) = .ok (Tensor.chunks ns x) := by
  have hsum : (ns.map Int.ofNat).sum = (ns.sum : Int) := by
    clear h
    induction ns with
    | nil => rfl
    | cons n ns ih => simp only [List.map_cons, List.sum_cons, ih]; simp
  obtain ⟨parts, h1, h2⟩ := splitList_isSplit x (ns.map Int.ofNat)
    (by intro s hs; obtain ⟨n, _, rfl⟩ := List.mem_map.mp hs; exact Int.natCast_nonneg n)
    (by rw [hsum, h])
  rw [h1]
  congr 1
  refine isSplit_unique h2 ⟨?_, Tensor.chunks_flatten ns x h⟩
  have := congrArg (List.map Int.ofNat) (Tensor.chunks_lengths ns x h)
  rw [← this, List.map_map]
  rfl

theorem hasShapes_append {T U : List (Tensor α)} {s t : List (List Nat)} {K : Nat}
    (h1 : HasShapes T s K) (h2 : HasShapes U t K) : HasShapes (T ++ U) (s ++ t) K := by
  constructor
  · rw [List.map_append, List.map_append, h1.1, h2.1]
  · intro x hx
    rcases List.mem_append.mp hx with h | h
    · exact h1.2 x h
    · exact h2.2 x h

theorem hasShapes_take {T : List (Tensor α)} {s : List (List Nat)} {K : Nat} (n : Nat)
    (h : HasShapes T s K) : HasShapes (T.take n) (s.take n) K := by
  constructor
  · rw [List.map_take, h.1, List.map_take]
  · intro x hx; exact h.2 x (List.mem_of_mem_take hx)

theorem hasShapes_drop {T : List (Tensor α)} {s : List (List Nat)} {K : Nat} (n : Nat)
    (h : HasShapes T s K) : HasShapes (T.drop n) (s.drop n) K := by
  constructor
  · rw [List.map_drop, h.1, List.map_drop]
  · intro x hx; exact h.2 x (List.mem_of_mem_drop hx)

theorem flat_entry_append [Zero α] {T U : List (Tensor α)} {s : List (List Nat)} {K : Nat}
    (h1 : HasShapes T s K) {r k : Nat} (hk : k < K) :
    (flatData (T ++ U)).getD (r * K + k) 0 =
      if r < total s then (flatData T).getD (r * K + k) 0
      else (flatData U).getD ((r - total s) * K + k) 0 := by
  rw [flatData_append, getD_append_ite, h1.flatData_length]
  change (if r * K + k < total s * K then _ else _) = _
  by_cases hr : r < total s
  · rw [if_pos (flat_index_lt hr hk), if_pos hr]
  · have : total s * K ≤ r * K := Nat.mul_le_mul_right K (by omega)
    rw [if_neg (by omega), if_neg hr]
    congr 1
    rw [Nat.sub_mul]
    change r * K + k - total s * K = _
    omega

theorem hessianBlocks_spec [NonUnitalNonAssocSemiring α] (H : Nat → Nat → α) {K : Nat} :
    ∀ (ns : List Nat) (shapes : List (List Nat)) (o : Nat) (M HM : List (Tensor α)),
      ns.sum = shapes.length → HasShapes M shapes K → HasShapes HM shapes K →
      (∀ i, (flatData HM).getD i 0 = 0) →
      ∃ Y, hessianBlocks H K ((Tensor.chunks ns M).zip ((Tensor.chunks ns (prefs o shapes)).zip
          ((Tensor.chunks ns (prefs o shapes)).zip (Tensor.chunks ns HM)))) = .ok Y ∧
        HasShapes Y shapes K ∧
        ∀ r < total shapes, ∀ k < K, (flatData Y).getD (r * K + k) 0 =
          ∑ c ∈ Finset.range (total shapes),
            (if blockIndex ((Tensor.chunks ns shapes).map total) r =
                blockIndex ((Tensor.chunks ns shapes).map total) c then H (o + r) (o + c) else 0) *
              (flatData M).getD (c * K + k) 0
  | [], shapes, o, M, HM, hns, hM, hHM, hz => by
    have hs : shapes = [] := List.length_eq_zero_iff.mp (by simpa using hns.symm)
    subst hs
    exact ⟨[], rfl, hasShapes_nil, by simp⟩
  | n :: ns, shapes, o, M, HM, hns, hM, hHM, hz => by
    have hsplit : shapes.take n ++ shapes.drop n = shapes := List.take_append_drop n shapes
    have hpre : prefs o shapes = prefs o (shapes.take n) ++
        prefs (o + total (shapes.take n)) (shapes.drop n) := by
      rw [← prefs_append, hsplit]
    have hlen1 : (shapes.take n).length = n := by
      rw [List.length_take]; simp at hns; omega
    have hpt : (prefs o shapes).take n = prefs o (shapes.take n) := by
      rw [hpre, List.take_left' (by rw [prefs_length, hlen1])]
    have hpd : (prefs o shapes).drop n = prefs (o + total (shapes.take n)) (shapes.drop n) := by
      rw [hpre, List.drop_left' (by rw [prefs_length, hlen1])]
    have hM1 := hasShapes_take n hM
    have hM2 := hasShapes_drop n hM
    have hH1 := hasShapes_take n hHM
    have hH2 := hasShapes_drop n hHM
    have hHMs : HM.take n ++ HM.drop n = HM := List.take_append_drop n HM
    have hMs : M.take n ++ M.drop n = M := List.take_append_drop n M
    have hz1 : ∀ i, (flatData (HM.take n)).getD i 0 = 0 := by
      intro i
      by_cases hi : i < (flatData (HM.take n)).length
      · have := hz i
        rw [← hHMs, flatData_append, getD_append_ite, if_pos hi] at this
        exact this
      · simp [List.getD_eq_getElem?_getD, hi]
    have hz2 : ∀ i, (flatData (HM.drop n)).getD i 0 = 0 := by
      intro i
      have := hz ((flatData (HM.take n)).length + i)
      have e : flatData HM = flatData (HM.take n) ++ flatData (HM.drop n) := by
        rw [← flatData_append, hHMs]
      rw [e, getD_append_ite, if_neg (by omega)] at this
      simpa using this
    obtain ⟨Y1, a1, a2, a3⟩ := columnLoop_spec
      (fun v => hvp H (prefs o (shapes.take n)) v (prefs o (shapes.take n)))
      (M := M.take n) (T := HM.take n) (shapesOut := shapes.take n) (K := K)
      (fun m hm => (hvp_spec H (shapes.take n) o _ (cols_spec hM1 hm).1).1) hH1
      (fun r _ k _ => hz1 _)
    obtain ⟨Y2, b1, b2, b3⟩ := hessianBlocks_spec H ns (shapes.drop n) (o + total (shapes.take n))
      (M.drop n) (HM.drop n) (by rw [List.length_drop]; simp at hns; omega) hM2 hH2 hz2
    refine ⟨Y1 ++ Y2, ?_, ?_, ?_⟩
    · simp only [Tensor.chunks, hpt, hpd, List.zip_cons_cons, hessianBlocks, a1, b1]
    · rw [← hsplit]; exact hasShapes_append a2 b2
    · intro r hr k hk
      have htot : total shapes = total (shapes.take n) + total (shapes.drop n) := by
        rw [← total_append, hsplit]
      simp only [Tensor.chunks, List.map_cons, blockIndex]
      rw [htot, Finset.sum_range_add, flat_entry_append a2 hk]
      have e1 : ∀ c < total (shapes.take n), (flatData M).getD (c * K + k) 0 =
          (flatData (M.take n)).getD (c * K + k) 0 := by
        intro c hc
        conv_lhs => rw [← hMs]
        rw [flat_entry_append hM1 hk, if_pos hc]
      have e2 : ∀ c, (flatData M).getD ((total (shapes.take n) + c) * K + k) 0 =
          (flatData (M.drop n)).getD (c * K + k) 0 := by
        intro c
        conv_lhs => rw [← hMs]
        rw [flat_entry_append hM1 hk, if_neg (by omega), Nat.add_sub_cancel_left]
      by_cases hrs : r < total (shapes.take n)
      · rw [if_pos hrs, a3 r hrs k hk,
          (hvp_spec H (shapes.take n) o _ (cols_spec hM1 hk).1).2 r hrs]
        have hzero : ∑ x ∈ Finset.range (total (shapes.drop n)),
            (if (if r < total (shapes.take n) then 0 else
                blockIndex ((Tensor.chunks ns (shapes.drop n)).map total) (r - total (shapes.take n)) + 1) =
              (if total (shapes.take n) + x < total (shapes.take n) then 0 else
                blockIndex ((Tensor.chunks ns (shapes.drop n)).map total)
                  (total (shapes.take n) + x - total (shapes.take n)) + 1)
              then H (o + r) (o + (total (shapes.take n) + x)) else 0) *
              (flatData M).getD ((total (shapes.take n) + x) * K + k) 0 = 0 := by
          refine Finset.sum_eq_zero fun x _ => ?_
          rw [if_pos hrs, if_neg (show ¬ total (shapes.take n) + x < total (shapes.take n) by omega),
            if_neg (by omega), zero_mul]
        rw [hzero, add_zero]
        refine Finset.sum_congr rfl fun c hc => ?_
        have hc' := Finset.mem_range.mp hc
        rw [if_pos hrs, if_pos hc', if_pos rfl, e1 c hc', (cols_spec hM1 hk).2 c hc']
      · rw [if_neg hrs, b3 (r - total (shapes.take n)) (by omega) k hk]
        have hzero : ∑ x ∈ Finset.range (total (shapes.take n)),
            (if (if r < total (shapes.take n) then 0 else
                blockIndex ((Tensor.chunks ns (shapes.drop n)).map total) (r - total (shapes.take n)) + 1) =
              (if x < total (shapes.take n) then 0 else
                blockIndex ((Tensor.chunks ns (shapes.drop n)).map total)
                  (x - total (shapes.take n)) + 1)
              then H (o + r) (o + x) else 0) * (flatData M).getD (x * K + k) 0 = 0 := by
          refine Finset.sum_eq_zero fun x hx => ?_
          rw [if_neg hrs, if_pos (Finset.mem_range.mp hx), if_neg (by omega), zero_mul]
        rw [hzero, zero_add]
        refine Finset.sum_congr rfl fun c _ => ?_
        rw [if_neg hrs, if_neg (show ¬ total (shapes.take n) + c < total (shapes.take n) by omega),
          Nat.add_sub_cancel_left, e2 c]
        congr 1
        have h1 : o + total (shapes.take n) + (r - total (shapes.take n)) = o + r := by omega
        have h2 : o + total (shapes.take n) + c = o + (total (shapes.take n) + c) := by omega
        rw [h1, h2]
        simp only [Nat.add_right_cancel_iff]

theorem hessianMatmatBatch_represents [NonUnitalNonAssocSemiring α] (shapes : List (List Nat))
    (hne : shapes ≠ []) (ns : List Nat) (hns : ns.sum = shapes.length) (H : Mat α) :
    BatchRepresents shapes (hessianMatmatBatch shapes (ns.map Int.ofNat) H)
      (blockDiagonal ((Tensor.chunks ns shapes).map total) H) := by
  intro K M hM
  obtain ⟨Y, h1, h2, h3⟩ := hessianBlocks_spec H ns shapes 0 M (M.map Tensor.zerosLike) hns hM
    (hasShapes_zeros hM) (fun i => flat_zeros M i)
  refine ⟨Y, ?_, h2, h2.flatData_length, ?_⟩
  · unfold hessianMatmatBatch
    simp only [numVecs_ok hM hne]
    rw [splitList_eq_chunks M ns (by rw [hM.length, hns])]
    rw [splitList_eq_chunks (prefs 0 shapes) ns (by rw [prefs_length, hns])]
    rw [splitList_eq_chunks (M.map Tensor.zerosLike) ns (by rw [List.length_map, hM.length, hns])]
    exact h1
  · intro r hr k hk
    rw [h3 r hr k hk]
    simp only [Nat.zero_add, blockDiagonal]

theorem ggnMatmatBatch_represents [NonUnitalSemiring α] (shapes : List (List Nat))
    (hne : shapes ≠ []) (J HL : Mat α) (outShape : List Nat) :
    BatchRepresents shapes (ggnMatmatBatch shapes J HL outShape)
      (fun r c => ∑ s ∈ Finset.range outShape.prod, ∑ s' ∈ Finset.range outShape.prod,
        J s r * HL s s' * J s' c) := by
  intro K M hM
  obtain ⟨Y, h1, h2, h3⟩ := columnLoop_spec (ggnvp J HL outShape (prefs 0 shapes)) (M := M)
    (T := M.map Tensor.zerosLike) (shapesOut := shapes) (K := K)
    (fun n hn => (ggnvp_spec J HL outShape shapes _ (cols_spec hM hn).1).1) (hasShapes_zeros hM)
    (fun r _ k _ => flat_zeros M _)
  refine ⟨Y, ?_, h2, h2.flatData_length, ?_⟩
  · unfold ggnMatmatBatch
    simp only [numVecs_ok hM hne]
    exact h1
  · intro r hr k hk
    rw [h3 r hr k hk, (ggnvp_spec J HL outShape shapes _ (cols_spec hM hk).1).2 r hr]
    simp only [Finset.mul_sum, Finset.sum_mul]
    rw [Finset.sum_congr rfl fun s _ => Finset.sum_comm]
    rw [Finset.sum_comm]
    refine Finset.sum_congr rfl fun c hc => ?_
    refine Finset.sum_congr rfl fun s _ => ?_
    refine Finset.sum_congr rfl fun s' _ => ?_
    rw [(cols_spec hM hk).2 c (Finset.mem_range.mp hc)]
    simp only [mul_assoc]

end Curvlinops
