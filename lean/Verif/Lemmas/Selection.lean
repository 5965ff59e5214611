import Verif.Spec.Selection
import Verif.Props.NaturalGradient

namespace Curvlinops

variable {α : Type _} {shapes : List (List Nat)} {sel : List Nat} {K : Nat}

theorem HasShapes.get {Y : List (Tensor α)} (h : HasShapes Y shapes K) (d : Tensor α) {p : Nat} (hp : p < shapes.length) :
    (Y.getD p d).shape = shapes.getD p [] ++ [K] ∧ (Y.getD p d).WF := by
  have hp' : p < Y.length := by rw [h.length]; exact hp
  have e : Y.getD p d = Y[p] := by simp [List.getD, hp']
  refine ⟨?_, ?_⟩
  · have := congrArg (fun l => l[p]?) h.1
    simp only [List.getElem?_map, List.getElem?_eq_getElem hp', List.getElem?_eq_getElem hp, Option.map_some,
      Option.some.injEq] at this
    rw [e, this]
    simp [List.getD, hp]
  · rw [e]
    exact h.2 _ (List.getElem_mem hp')

theorem pickParams_hasShapes {Y : List (Tensor α)} (h : HasShapes Y shapes K) (hs : Selects shapes sel) :
    HasShapes (pickParams sel Y) (selShapes shapes sel) K := by
  refine ⟨?_, ?_⟩
  · simp only [pickParams, selShapes, List.map_map]
    apply List.map_congr_left
    intro p hp
    exact (h.get _ (hs.lt p hp)).1
  · intro t ht
    obtain ⟨p, hp, rfl⟩ := List.mem_map.mp ht
    exact (h.get _ (hs.lt p hp)).2

theorem selShapes_length : (selShapes shapes sel).length = sel.length := by simp [selShapes]

theorem selIndex_offset : ∀ (sel : List Nat) (a s : Nat) (ha : a < sel.length), s < (shapes.getD sel[a] []).prod →
    selIndex shapes sel (offset (selShapes shapes sel) a + s) = offset shapes sel[a] + s
  | [], a, s, ha, _ => by simp at ha
  | p :: sel, 0, s, _, hs => by
    have h0 : offset (selShapes shapes (p :: sel)) 0 = 0 := by simp [offset]
    have hs' : s < (shapes.getD p []).prod := hs
    simp only [selIndex, h0, Nat.zero_add, if_pos hs', List.getElem_cons_zero]
  | p :: sel, a + 1, s, ha, hs => by
    have ho : offset (selShapes shapes (p :: sel)) (a + 1) = (shapes.getD p []).prod + offset (selShapes shapes sel) a := by
      simp [offset, selShapes]
    have ih := selIndex_offset sel a s (by simpa using ha) (by simpa using hs)
    simp only [List.getElem_cons_succ]
    rw [← ih, ho]
    simp only [selIndex]
    rw [if_neg (by omega)]
    congr 1
    omega

theorem selShapes_getD {a : Nat} (ha : a < sel.length) : (selShapes shapes sel).getD a [] = shapes.getD sel[a] [] := by
  simp [selShapes, List.getD, ha]

/-- Every coordinate of the selection belongs to a selected parameter. -/
theorem selIndex_cover {r : Nat} (hr : r < total (selShapes shapes sel)) :
    ∃ a, ∃ ha : a < sel.length, ∃ s < (shapes.getD sel[a] []).prod, r = offset (selShapes shapes sel) a + s ∧
      selIndex shapes sel r = offset shapes sel[a] + s := by
  obtain ⟨a, ha, s, hs, e⟩ := offset_cover (shapes := selShapes shapes sel) hr
  rw [selShapes_length] at ha
  rw [selShapes_getD ha] at hs
  exact ⟨a, ha, s, hs, e, by rw [e]; exact selIndex_offset sel a s ha hs⟩

theorem offset_add_lt {p s : Nat} (hp : p < shapes.length) (hs : s < (shapes.getD p []).prod) :
    offset shapes p + s < total shapes := by
  have h : (shapes.map List.prod).sum = offset shapes p + ((shapes.drop p).map List.prod).sum := by
    conv_lhs => rw [← List.take_append_drop p shapes]
    rw [List.map_append, List.sum_append]
    rfl
  rw [total, h, List.drop_eq_getElem_cons hp, List.map_cons, List.sum_cons]
  have : shapes.getD p [] = shapes[p] := by simp [List.getD, hp]
  rw [this] at hs
  omega

theorem selIndex_lt (hs : Selects shapes sel) {r : Nat} (hr : r < total (selShapes shapes sel)) :
    selIndex shapes sel r < total shapes := by
  obtain ⟨a, ha, s, hs', _, e⟩ := selIndex_cover hr
  rw [e]
  exact offset_add_lt (hs.lt _ (List.getElem_mem ha)) hs'

theorem selIndex_injOn (hs : Selects shapes sel) {r c : Nat} (hr : r < total (selShapes shapes sel))
    (hc : c < total (selShapes shapes sel)) (h : selIndex shapes sel r = selIndex shapes sel c) : r = c := by
  obtain ⟨a, ha, s, hs', er, e⟩ := selIndex_cover hr
  obtain ⟨b, hb, s', hs'', ec, e'⟩ := selIndex_cover hc
  rw [e, e'] at h
  have hab : a = b := by
    by_contra hne
    exact offset_ne (fun hh => hne (hs.nodup.getElem_inj_iff.mp hh)) (hs.lt _ (List.getElem_mem ha))
      (hs.lt _ (List.getElem_mem hb)) hs' hs'' h
  subst hab
  omega

/-- The entries of selected tensors. -/
theorem pickParams_entry [Zero α] {Y : List (Tensor α)} (h : HasShapes Y shapes K) (hs : Selects shapes sel) {r k : Nat}
    (hr : r < total (selShapes shapes sel)) (hk : k < K) :
    (flatData (pickParams sel Y)).getD (r * K + k) 0 = (flatData Y).getD (selIndex shapes sel r * K + k) 0 := by
  obtain ⟨a, ha, s, hs', er, e⟩ := selIndex_cover hr
  have hp := hs.lt _ (List.getElem_mem ha)
  have hp' : sel[a] < Y.length := by rw [h.length]; exact hp
  rw [e, er, flatData_offset _ _ _ (pickParams_hasShapes h hs) a (by simpa [pickParams] using ha) s k
    (by rw [selShapes_getD ha]; exact hs') hk, flatData_offset _ _ _ h _ hp' s k hs' hk]
  simp [pickParams, List.getD, hp']

variable [Zero α]

theorem padParams_hasShapes {M : List (Tensor α)} (h : HasShapes M (selShapes shapes sel) K) :
    HasShapes (padParams shapes sel K M) shapes K := by
  have key : ∀ p, p ∈ sel → (M.getD (sel.idxOf p) ⟨[], []⟩).shape = shapes.getD p [] ++ [K] ∧
      (M.getD (sel.idxOf p) ⟨[], []⟩).WF := by
    intro p hp
    have hi := List.idxOf_lt_length_of_mem hp
    have := h.get ⟨[], []⟩ (p := sel.idxOf p) (by rw [selShapes_length]; exact hi)
    rw [selShapes_getD hi, List.getElem_idxOf hi] at this
    exact this
  refine ⟨?_, ?_⟩
  · apply List.ext_getElem
    · simp [padParams]
    · intro p h1 h2
      simp only [List.length_map] at h2
      simp only [padParams, List.getElem_map, List.getElem_range]
      have e : shapes.getD p [] = shapes[p] := by simp [List.getD, h2]
      split
      · rename_i hp
        rw [(key p hp).1, e]
      · simp only [e]
  · intro t ht
    obtain ⟨p, _, rfl⟩ := List.mem_map.mp ht
    split
    · rename_i hp
      exact (key p hp).2
    · simp [Tensor.WF]

theorem pick_pad (hs : Selects shapes sel) {M : List (Tensor α)} (h : M.length = sel.length) :
    pickParams sel (padParams shapes sel K M) = M := by
  apply List.ext_getElem
  · simp [pickParams, h]
  · intro a h1 h2
    have ha : a < sel.length := by simpa [pickParams] using h1
    have hp := hs.lt _ (List.getElem_mem ha)
    simp only [pickParams, List.getElem_map, padParams, List.getD_eq_getElem?_getD]
    rw [List.getElem?_map, List.getElem?_range hp]
    simp [hs.nodup.idxOf_getElem a ha, h2]

theorem padParams_entry (hs : Selects shapes sel) {M : List (Tensor α)} (h : HasShapes M (selShapes shapes sel) K) {r k : Nat}
    (hr : r < total (selShapes shapes sel)) (hk : k < K) :
    (flatData (padParams shapes sel K M)).getD (selIndex shapes sel r * K + k) 0 = (flatData M).getD (r * K + k) 0 := by
  rw [← pickParams_entry (padParams_hasShapes h) hs hr hk, pick_pad hs (by rw [h.length, selShapes_length])]

theorem padParams_zero {M : List (Tensor α)} (h : HasShapes M (selShapes shapes sel) K) {c k : Nat}
    (hc : c < total shapes) (hk : k < K) (hn : ∀ r < total (selShapes shapes sel), selIndex shapes sel r ≠ c) :
    (flatData (padParams shapes sel K M)).getD (c * K + k) 0 = 0 := by
  obtain ⟨p, hp, s, hs', e⟩ := offset_cover hc
  have hps : p ∉ sel := by
    intro hm
    have hi := List.idxOf_lt_length_of_mem hm
    have hg := List.getElem_idxOf hi
    have hs'' : s < (shapes.getD sel[sel.idxOf p] []).prod := by rw [hg]; exact hs'
    refine hn (offset (selShapes shapes sel) (sel.idxOf p) + s) ?_ ?_
    · exact offset_add_lt (by rw [selShapes_length]; exact hi) (by rw [selShapes_getD hi]; exact hs'')
    · rw [selIndex_offset _ _ _ hi hs'', hg, e]
  have hp' : p < (padParams shapes sel K M).length := by simpa [padParams] using hp
  rw [e, flatData_offset _ _ _ (padParams_hasShapes h) p hp' s k hs' hk]
  simp only [padParams, List.getElem_map, List.getElem_range, if_neg hps]
  simp [List.getD, List.getElem?_replicate]
  split <;> rfl

end Curvlinops
