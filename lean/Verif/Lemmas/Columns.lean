import Verif.Model.Curvature
import Verif.Lemmas.Tensor
import Mathlib.Tactic.Abel

/-!
# Entry-wise description of the column loops
-/

namespace Curvlinops

variable {α : Type _}

/-- Well-formed tensors with exactly these shapes. -/
def HasVec (ts : List (Tensor α)) (shapes : List (List Nat)) : Prop :=
  ts.map (·.shape) = shapes ∧ ∀ t ∈ ts, t.WF

theorem hasVec_cons {t : Tensor α} {ts : List (Tensor α)} {s : List Nat} {ss : List (List Nat)} :
    HasVec (t :: ts) (s :: ss) ↔ (t.shape = s ∧ t.WF) ∧ HasVec ts ss := by
  simp only [HasVec, List.map_cons, List.cons.injEq, List.mem_cons, forall_eq_or_imp]
  tauto

theorem HasVec.length {ts : List (Tensor α)} {shapes : List (List Nat)} (h : HasVec ts shapes) :
    ts.length = shapes.length := by simpa using congrArg List.length h.1

theorem HasVec.flatData_length {ts : List (Tensor α)} {shapes : List (List Nat)}
    (h : HasVec ts shapes) : (flatData ts).length = (shapes.map List.prod).sum := by
  rw [Curvlinops.flatData_length ts h.2, ← h.1, List.map_map]
  rfl

/-- Total number of coordinates. -/
def total (shapes : List (List Nat)) : Nat := (shapes.map List.prod).sum

@[simp] theorem total_nil : total [] = 0 := rfl
@[simp] theorem total_cons (s : List Nat) (ss : List (List Nat)) :
    total (s :: ss) = s.prod + total ss := by simp [total]
theorem total_append (s t : List (List Nat)) : total (s ++ t) = total s + total t := by
  simp [total]

theorem getD_append_ite (l m : List α) (i : Nat) (d : α) :
    (l ++ m).getD i d = if i < l.length then l.getD i d else m.getD (i - l.length) d := by
  split
  · rename_i h
    simp [List.getD_eq_getElem?_getD, List.getElem?_append_left h]
  · rename_i h
    simp [List.getD_eq_getElem?_getD, List.getElem?_append_right (not_lt.mp h)]

theorem getD_range_map (f : Nat → α) (n i : Nat) (d : α) (h : i < n) :
    ((List.range n).map f).getD i d = f i := by
  simp [List.getD_eq_getElem?_getD, h]

section entries

variable [Zero α]

theorem flat_entry_cons {t : Tensor α} {ts : List (Tensor α)} {s : List Nat} {ss : List (List Nat)}
    {K : Nat} (h : HasShapes (t :: ts) (s :: ss) K) {r k : Nat} (hk : k < K) :
    (flatData (t :: ts)).getD (r * K + k) 0 =
      if r < s.prod then t.data.getD (r * K + k) 0
      else (flatData ts).getD ((r - s.prod) * K + k) 0 := by
  rw [hasShapes_cons] at h
  have hl : t.data.length = s.prod * K := by rw [h.1.2, h.1.1]; simp
  rw [flatData_cons, getD_append_ite, hl]
  by_cases hr : r < s.prod
  · rw [if_pos (flat_index_lt hr hk), if_pos hr]
  · rw [if_neg, if_neg hr]
    · congr 1
      rw [Nat.sub_mul]
      have : s.prod * K ≤ r * K := Nat.mul_le_mul_right K (by omega)
      omega
    · have : s.prod * K ≤ r * K := Nat.mul_le_mul_right K (by omega)
      omega

theorem flat_vec_cons {t : Tensor α} {ts : List (Tensor α)} {s : List Nat} {ss : List (List Nat)}
    (h : HasVec (t :: ts) (s :: ss)) (r : Nat) :
    (flatData (t :: ts)).getD r 0 =
      if r < s.prod then t.data.getD r 0 else (flatData ts).getD (r - s.prod) 0 := by
  rw [hasVec_cons] at h
  have hl : t.data.length = s.prod := by rw [h.1.2, h.1.1]
  rw [flatData_cons, getD_append_ite, hl]

/-- `[m[..., n] for m in M]` is column `n`. -/
theorem cols_spec {M : List (Tensor α)} {shapes : List (List Nat)} {K n : Nat}
    (h : HasShapes M shapes K) (hn : n < K) :
    HasVec (M.map (Tensor.col n)) shapes ∧
      ∀ r < total shapes, (flatData (M.map (Tensor.col n))).getD r 0 =
        (flatData M).getD (r * K + n) 0 := by
  induction M generalizing shapes with
  | nil =>
    have hs : shapes = [] := List.length_eq_zero_iff.mp h.length.symm
    subst hs
    exact ⟨by simp [HasVec], by simp⟩
  | cons t ts ih =>
    rcases shapes with _ | ⟨s, ss⟩
    · have := h.length; simp at this
    have h' := h
    rw [hasShapes_cons] at h'
    obtain ⟨⟨h1, h2⟩, h3⟩ := h'
    obtain ⟨i1, i2⟩ := ih h3
    have hc : Tensor.col n t = ⟨s, (List.range s.prod).map fun i => t.data.getD (i * K + n) 0⟩ := by
      unfold Tensor.col; rw [h1]; simp
    have hv : HasVec ((t :: ts).map (Tensor.col n)) (s :: ss) := by
      rw [List.map_cons, hasVec_cons]
      refine ⟨?_, i1⟩
      rw [hc]
      exact ⟨rfl, by simp [Tensor.WF]⟩
    refine ⟨hv, ?_⟩
    intro r hr
    rw [total_cons] at hr
    rw [flat_entry_cons h hn]
    rw [List.map_cons] at hv ⊢
    rw [flat_vec_cons hv]
    by_cases hrs : r < s.prod
    · rw [if_pos hrs, if_pos hrs, hc, getD_range_map _ _ _ _ hrs]
    · rw [if_neg hrs, if_neg hrs, i2 (r - s.prod) (by omega)]

theorem hasShapes_zeros {M : List (Tensor α)} {shapes : List (List Nat)} {K : Nat}
    (h : HasShapes M shapes K) : HasShapes (M.map Tensor.zerosLike) shapes K := by
  constructor
  · rw [List.map_map, ← h.1]; rfl
  · intro t ht
    obtain ⟨u, hu, rfl⟩ := List.mem_map.mp ht
    simpa [Tensor.WF, Tensor.zerosLike] using h.2 u hu

theorem flat_zeros (M : List (Tensor α)) (i : Nat) :
    (flatData (M.map Tensor.zerosLike)).getD i 0 = 0 := by
  have : flatData (M.map Tensor.zerosLike) = (flatData M).map fun _ => (0 : α) := by
    simp [flatData, Tensor.zerosLike, List.map_flatten, Function.comp_def]
  rw [this]
  by_cases h : i < (flatData M).length
  · simp [List.getD_eq_getElem?_getD, h]
  · simp [List.getD_eq_getElem?_getD, h]

end entries

theorem numVecs_ok {M : List (Tensor α)} {shapes : List (List Nat)} {K : Nat}
    (h : HasShapes M shapes K) (hne : shapes ≠ []) : numVecs M = .ok K := by
  have hd : (M.map fun x => x.shape.getLastD 0).dedup = [K] := by
    apply dedup_const
    · intro h0
      apply hne
      have hM : M = [] := by simpa using h0
      have := h.length
      rw [hM] at this
      exact List.length_eq_zero_iff.mp this.symm
    · intro a ha
      obtain ⟨t, ht, rfl⟩ := List.mem_map.mp ha
      have : t.shape ∈ M.map (·.shape) := List.mem_map.mpr ⟨t, ht, rfl⟩
      rw [h.1] at this
      obtain ⟨s, _, hs⟩ := List.mem_map.mp this
      rw [← hs]; simp
  unfold numVecs
  rw [hd]

section add

variable [AddMonoid α]

theorem addCol_entry {t c : Tensor α} {s : List Nat} {K n : Nat} (h1 : t.shape = s ++ [K]) (h2 : t.WF)
    (h3 : c.shape = s) (hn : n < K) :
    ∃ t', t.addCol n c = .ok t' ∧ t'.shape = s ++ [K] ∧ t'.WF ∧
      ∀ r < s.prod, ∀ k < K, t'.data.getD (r * K + k) 0 =
        t.data.getD (r * K + k) 0 + if k = n then c.data.getD r 0 else 0 := by
  have hl : t.data.length = s.prod * K := by rw [h2, h1]; simp
  refine ⟨⟨t.shape, t.data.mapIdx fun j v => if j % K = n then v + c.data.getD (j / K) 0 else v⟩,
    ?_, h1, ?_, ?_⟩
  · unfold Tensor.addCol
    rw [h1]
    simp only [List.getLastD_concat, List.dropLast_concat, h3, if_true]
  · simp only [Tensor.WF, List.length_mapIdx]; exact h2
  · intro r hr k hk
    have hi := flat_index_lt hr hk
    have hm : (r * K + k) % K = k := by
      rw [Nat.mul_comm, Nat.mul_add_mod]; exact Nat.mod_eq_of_lt hk
    have hd : (r * K + k) / K = r := by
      rw [Nat.mul_comm, Nat.mul_add_div (by omega)]
      rw [Nat.div_eq_of_lt hk]; simp
    simp only [List.getD_eq_getElem?_getD, List.getElem?_mapIdx, hm, hd]
    have hlt : r * K + k < t.data.length := by omega
    rw [List.getElem?_eq_getElem hlt]
    simp only [Option.map_some, Option.getD_some]
    split <;> simp

/-- `for T_p, c_p in zip(T, C): T_p[..., n].add_(c_p)` adds the vector to column `n`. -/
theorem addCols_spec {T C : List (Tensor α)} {shapes : List (List Nat)} {K n : Nat}
    (hT : HasShapes T shapes K) (hC : HasVec C shapes) (hn : n < K) :
    ∃ T', zipUpdate (fun t c => t.addCol n c) T C = .ok T' ∧ HasShapes T' shapes K ∧
      ∀ r < total shapes, ∀ k < K, (flatData T').getD (r * K + k) 0 =
        (flatData T).getD (r * K + k) 0 + if k = n then (flatData C).getD r 0 else 0 := by
  induction T generalizing C shapes with
  | nil =>
    have hs : shapes = [] := List.length_eq_zero_iff.mp hT.length.symm
    subst hs
    exact ⟨[], by simp [zipUpdate], hT, by simp⟩
  | cons t ts ih =>
    rcases shapes with _ | ⟨s, ss⟩
    · have := hT.length; simp at this
    rcases C with _ | ⟨c, cs⟩
    · have := hC.length; simp at this
    have hT' := hT
    have hC' := hC
    rw [hasShapes_cons] at hT'
    rw [hasVec_cons] at hC'
    obtain ⟨⟨h1, h2⟩, h3⟩ := hT'
    obtain ⟨⟨g1, g2⟩, g3⟩ := hC'
    obtain ⟨ts', e1, e2, e3⟩ := ih h3 g3
    obtain ⟨t', f1, f2, f3, f4⟩ := addCol_entry h1 h2 g1 hn
    have hS : HasShapes (t' :: ts') (s :: ss) K := hasShapes_cons.mpr ⟨⟨f2, f3⟩, e2⟩
    refine ⟨t' :: ts', ?_, hS, ?_⟩
    · simp only [zipUpdate, f1, e1]
    · intro r hr k hk
      rw [total_cons] at hr
      rw [flat_entry_cons hS hk, flat_entry_cons hT hk, flat_vec_cons hC]
      by_cases hrs : r < s.prod
      · simp only [if_pos hrs, f4 r hrs k hk]
      · simp only [if_neg hrs, e3 (r - s.prod) (by omega) k hk]

theorem columnLoop_aux (f : List (Tensor α) → List (Tensor α)) {M : List (Tensor α)}
    {shapesOut : List (List Nat)} {K : Nat}
    (hf : ∀ n < K, HasVec (f (M.map (Tensor.col n))) shapesOut) :
    ∀ (ns : List Nat) (T : List (Tensor α)), ns.Nodup → (∀ n ∈ ns, n < K) → HasShapes T shapesOut K →
      ∃ T', columnLoop f M ns T = .ok T' ∧ HasShapes T' shapesOut K ∧
        ∀ r < total shapesOut, ∀ k < K, (flatData T').getD (r * K + k) 0 =
          (flatData T).getD (r * K + k) 0 +
            if k ∈ ns then (flatData (f (M.map (Tensor.col k)))).getD r 0 else 0
  | [], T, _, _, hT => ⟨T, rfl, hT, by simp⟩
  | n :: ns, T, hnd, hlt, hT => by
    obtain ⟨T1, h1, h2, h3⟩ := addCols_spec hT (hf n (hlt n (by simp))) (hlt n (by simp))
    rw [List.nodup_cons] at hnd
    obtain ⟨T', g1, g2, g3⟩ := columnLoop_aux f hf ns T1 hnd.2 (fun m hm => hlt m (by simp [hm])) h2
    refine ⟨T', ?_, g2, ?_⟩
    · simp only [columnLoop, h1, g1]
    · intro r hr k hk
      rw [g3 r hr k hk, h3 r hr k hk]
      by_cases hkn : k = n
      · subst hkn
        simp [hnd.1]
      · simp [hkn]

/-- The column loop over all columns, started from zeros, applies `f` to every column. -/
theorem columnLoop_spec (f : List (Tensor α) → List (Tensor α)) {M T : List (Tensor α)}
    {shapesOut : List (List Nat)} {K : Nat}
    (hf : ∀ n < K, HasVec (f (M.map (Tensor.col n))) shapesOut) (hT : HasShapes T shapesOut K)
    (hzero : ∀ r < total shapesOut, ∀ k < K, (flatData T).getD (r * K + k) 0 = 0) :
    ∃ T', columnLoop f M (List.range K) T = .ok T' ∧ HasShapes T' shapesOut K ∧
      ∀ r < total shapesOut, ∀ k < K, (flatData T').getD (r * K + k) 0 =
          (flatData (f (M.map (Tensor.col k)))).getD r 0 := by
  obtain ⟨T', h1, h2, h3⟩ := columnLoop_aux f hf (List.range K) T List.nodup_range
    (fun n hn => List.mem_range.mp hn) hT
  refine ⟨T', h1, h2, ?_⟩
  intro r hr k hk
  rw [h3 r hr k hk, hzero r hr k hk, if_pos (List.mem_range.mpr hk), zero_add]

end add

/-! ## The primitives -/

section prims

variable [NonUnitalNonAssocSemiring α]

theorem contract_spec (h : Nat → α) : ∀ (shapes : List (List Nat)) (o : Nat) (v : List (Tensor α)),
    HasVec v shapes →
      contract h (prefs o shapes) v =
        ∑ j ∈ Finset.range (total shapes), h (o + j) * (flatData v).getD j 0
  | [], o, v, hv => by simp [contract, prefs]
  | s :: ss, o, v, hv => by
    rcases v with _ | ⟨t, ts⟩
    · have := hv.length; simp at this
    have hv' := hv
    rw [hasVec_cons] at hv'
    rw [prefs, contract, contract_spec h ss (o + s.prod) ts hv'.2, total_cons, Finset.sum_range_add]
    congr 1
    · exact Finset.sum_congr rfl fun j hj => by
        rw [flat_vec_cons hv, if_pos (Finset.mem_range.mp hj)]
    · exact Finset.sum_congr rfl fun j hj => by
        rw [flat_vec_cons hv, if_neg (by omega), Nat.add_sub_cancel_left, Nat.add_assoc]

theorem prefs_map_spec (g : Nat → α) : ∀ (shapes : List (List Nat)) (o : Nat),
    HasVec ((prefs o shapes).map fun p =>
      (⟨p.shape, (List.range p.shape.prod).map fun i => g (p.off + i)⟩ : Tensor α)) shapes ∧
    ∀ r < total shapes, (flatData ((prefs o shapes).map fun p =>
      (⟨p.shape, (List.range p.shape.prod).map fun i => g (p.off + i)⟩ : Tensor α))).getD r 0 =
        g (o + r)
  | [], o => ⟨by simp [HasVec, prefs], by simp⟩
  | s :: ss, o => by
    obtain ⟨i1, i2⟩ := prefs_map_spec g ss (o + s.prod)
    have hv : HasVec ((prefs o (s :: ss)).map fun p =>
      (⟨p.shape, (List.range p.shape.prod).map fun i => g (p.off + i)⟩ : Tensor α)) (s :: ss) := by
      rw [prefs, List.map_cons, hasVec_cons]
      exact ⟨⟨rfl, by simp [Tensor.WF]⟩, i1⟩
    refine ⟨hv, ?_⟩
    intro r hr
    rw [total_cons] at hr
    rw [prefs, List.map_cons] at hv ⊢
    rw [flat_vec_cons hv]
    by_cases h : r < s.prod
    · rw [if_pos h, getD_range_map _ _ _ _ h]
    · rw [if_neg h, i2 (r - s.prod) (by omega)]
      congr 1; omega

theorem hvp_spec (H : Nat → Nat → α) (shapes : List (List Nat)) (o : Nat) (v : List (Tensor α))
    (hv : HasVec v shapes) :
    HasVec (hvp H (prefs o shapes) v (prefs o shapes)) shapes ∧
      ∀ r < total shapes, (flatData (hvp H (prefs o shapes) v (prefs o shapes))).getD r 0 =
        ∑ c ∈ Finset.range (total shapes), H (o + r) (o + c) * (flatData v).getD c 0 := by
  obtain ⟨h1, h2⟩ := prefs_map_spec (fun i => contract (H i) (prefs o shapes) v) shapes o
  refine ⟨h1, ?_⟩
  intro r hr
  have := h2 r hr
  rw [contract_spec (H (o + r)) shapes o v hv] at this
  exact this

theorem jvp_spec (J : Nat → Nat → α) (outShape : List Nat) (shapes : List (List Nat))
    (v : List (Tensor α)) (hv : HasVec v shapes) :
    (jvp J outShape (prefs 0 shapes) v).shape = outShape ∧ (jvp J outShape (prefs 0 shapes) v).WF ∧
      ∀ r < outShape.prod, (jvp J outShape (prefs 0 shapes) v).data.getD r 0 =
        ∑ c ∈ Finset.range (total shapes), J r c * (flatData v).getD c 0 := by
  refine ⟨rfl, by simp [jvp, Tensor.WF], ?_⟩
  intro r hr
  simp only [jvp]
  rw [getD_range_map _ _ _ _ hr, contract_spec (J r) shapes 0 v hv]
  simp

theorem vjp_spec (J : Nat → Nat → α) (shapes : List (List Nat)) (u : Tensor α) :
    HasVec (vjp J (prefs 0 shapes) u) shapes ∧
      ∀ r < total shapes, (flatData (vjp J (prefs 0 shapes) u)).getD r 0 =
        ∑ s ∈ Finset.range u.shape.prod, J s r * u.data.getD s 0 := by
  obtain ⟨h1, h2⟩ := prefs_map_spec
    (fun i => ∑ s ∈ Finset.range u.shape.prod, J s i * u.data.getD s 0) shapes 0
  refine ⟨h1, ?_⟩
  intro r hr
  have := h2 r hr
  rw [Nat.zero_add] at this
  exact this

theorem ggnvp_spec (J HL : Nat → Nat → α) (outShape : List Nat) (shapes : List (List Nat))
    (v : List (Tensor α)) (hv : HasVec v shapes) :
    HasVec (ggnvp J HL outShape (prefs 0 shapes) v) shapes ∧
      ∀ r < total shapes, (flatData (ggnvp J HL outShape (prefs 0 shapes) v)).getD r 0 =
        ∑ s ∈ Finset.range outShape.prod, J s r * ∑ s' ∈ Finset.range outShape.prod, HL s s' *
          ∑ c ∈ Finset.range (total shapes), J s' c * (flatData v).getD c 0 := by
  unfold ggnvp
  obtain ⟨h1, h2⟩ := vjp_spec J shapes (⟨outShape, (List.range outShape.prod).map fun r =>
    ∑ s ∈ Finset.range outShape.prod, HL r s *
      (jvp J outShape (prefs 0 shapes) v).data.getD s 0⟩ : Tensor α)
  refine ⟨h1, ?_⟩
  intro r hr
  rw [h2 r hr]
  refine Finset.sum_congr rfl fun s hs => ?_
  rw [getD_range_map _ _ _ _ (Finset.mem_range.mp hs)]
  congr 1
  refine Finset.sum_congr rfl fun s' hs' => ?_
  rw [(jvp_spec J outShape shapes v hv).2.2 s' (Finset.mem_range.mp hs')]

end prims

end Curvlinops
