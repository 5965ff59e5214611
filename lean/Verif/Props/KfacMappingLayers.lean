import Verif.Props.KfacMapping
import Verif.Props.KfacProduct

/-!
# C28 and C29 together

The mapping computed by the constructor has the form that the theorems on products assume, if no parameter is shared
between supported layers. With shared parameters it does not, and products use the factors of the last layer only.
-/

namespace Curvlinops

/-- Which parameters of a module with entry `inner` are in the list. -/
def layerPosOf (inner : Dict Nat) : LayerPos :=
  match inner.get "weight", inner.get "bias" with
  | some w, some b => .both w b
  | some w, none => .weight w
  | none, some b => .bias b
  | none, none => .bias 0

/-- C28/C29: if supported layers have a weight and possibly a bias, and share no parameters, the mapping lists each
position exactly once, with the parameters of each layer in the order weight, bias. -/
theorem computeMapping_layers (ids : List Nat) (mods : List Mod) (hnames : (mods.map Mod.name).Nodup)
    (hform : ∀ m ∈ mods, m.supported = true → ∃ w b, m.params = [("weight", w), ("bias", b)] ∨
      m.params = [("weight", w)])
    (hps : ∀ m ∈ mods, (m.params.map Prod.fst).Nodup)
    (hshare : ((mods.filter Mod.supported).flatMap fun m => m.params.map Prod.snd).Nodup)
    (mapping : Dict (Dict Nat)) (h : computeMapping ids mods = .ok mapping) :
    ∃ layers : List (String × LayerPos), mapping = layers.map (fun l => (l.1, l.2.dict)) ∧
      (layers.map Prod.fst).Nodup ∧
      (layers.flatMap fun l => l.2.positions).Perm (List.range ids.length) := by
  have herr := (computeMapping_raises_iff ids mods hnames hps).1
  rw [h] at herr
  simp only [reduceCtorEq, false_iff, not_or, not_not, not_exists, not_and] at herr
  obtain ⟨hnd, hown⟩ := herr
  have hkeys := (computeMapping_entries ids mods hnames hps mapping h).1
  have hm : mapping = (mods.filter (Mod.relevant ids)).map fun m => (m.name, ownPositions ids m.params) := by
    unfold computeMapping at h
    rw [moduleLoop_eq ids mods [] [] (by simpa [Dict.keys] using hnames) hps] at h
    simp only [List.nil_append] at h
    split_ifs at h
    cases h
    rfl
  -- the entry of a relevant module
  have hdict : ∀ m ∈ mods.filter (Mod.relevant ids),
      (layerPosOf (ownPositions ids m.params)).dict = ownPositions ids m.params ∧
      (layerPosOf (ownPositions ids m.params)).positions =
        ((m.params.map Prod.snd).filter fun i => decide (i ∈ ids)).map (ids.idxOf ·) := by
    intro m hmm
    obtain ⟨hmem, hrel⟩ := List.mem_filter.mp hmm
    simp only [Mod.relevant, Bool.and_eq_true] at hrel
    obtain ⟨w, b, hp | hp⟩ := hform m hmem hrel.1
    · rw [hp] at hrel ⊢
      by_cases hw : w ∈ ids <;> by_cases hb : b ∈ ids <;>
        simp [hw, hb, ownPositions, layerPosOf, Dict.get, List.lookup, LayerPos.dict, LayerPos.positions] at hrel ⊢
    · rw [hp] at hrel ⊢
      by_cases hw : w ∈ ids <;>
        simp [hw, ownPositions, layerPosOf, Dict.get, List.lookup, LayerPos.dict, LayerPos.positions] at hrel ⊢
  refine ⟨(mods.filter (Mod.relevant ids)).map fun m => (m.name, layerPosOf (ownPositions ids m.params)), ?_, ?_, ?_⟩
  · rw [hm, List.map_map]
    refine List.map_congr_left fun m hmm => ?_
    simp only [Function.comp_apply, (hdict m hmm).1]
  · rw [hm] at hkeys
    simpa [Dict.keys, List.map_map, Function.comp_def] using hkeys
  · rw [List.flatMap_map]
    have h1 : ((mods.filter (Mod.relevant ids)).flatMap fun m =>
          (layerPosOf (ownPositions ids m.params)).positions) =
        ((mods.filter (Mod.relevant ids)).flatMap fun m =>
          (m.params.map Prod.snd).filter fun i => decide (i ∈ ids)).map (ids.idxOf ·) := by
      rw [List.map_flatMap]
      exact List.flatMap_congr fun m hmm => (hdict m hmm).2
    have hperm : ((mods.filter (Mod.relevant ids)).flatMap fun m =>
        (m.params.map Prod.snd).filter fun i => decide (i ∈ ids)).Perm ids := by
      refine (List.perm_ext_iff_of_nodup ?_ hnd).mpr fun i => ?_
      · refine hshare.sublist ?_
        have hsub : ∀ l : List Mod, List.Sublist ((l.filter (Mod.relevant ids)).flatMap fun m =>
            (m.params.map Prod.snd).filter fun i => decide (i ∈ ids))
            ((l.filter Mod.supported).flatMap fun m => m.params.map Prod.snd) := by
          intro l
          induction l with
          | nil => simp
          | cons m l ih =>
            by_cases hs : m.supported = true
            · by_cases hr : m.relevant ids = true
              · rw [List.filter_cons_of_pos hr, List.filter_cons_of_pos hs, List.flatMap_cons, List.flatMap_cons]
                exact List.filter_sublist.append ih
              · rw [List.filter_cons_of_neg hr, List.filter_cons_of_pos hs, List.flatMap_cons]
                exact ih.trans (List.sublist_append_right _ _)
            · have hr : ¬ m.relevant ids = true := by simp [Mod.relevant, hs]
              rw [List.filter_cons_of_neg hr, List.filter_cons_of_neg hs]
              exact ih
        exact hsub mods
      · rw [mem_processed]
        exact ⟨fun hh => hh.1, fun hi => ⟨hi, hown i hi⟩⟩
    rw [h1]
    refine (hperm.map _).trans ?_
    have : ids.map (ids.idxOf ·) = List.range ids.length := by
      refine List.ext_getElem (by simp) fun p hp _ => ?_
      simp only [List.getElem_map, List.getElem_range]
      exact hnd.idxOf_getElem p (by simpa using hp)
    rw [this]

example : ∃ mapping, computeMapping [12, 10, 11] exampleMods = .ok mapping ∧
    mapping = [("0", [("weight", 1), ("bias", 2)]), ("2", [("weight", 0)])] := ⟨_, by decide, rfl⟩

/-- Remark on C29: with a weight shared by two layers the product uses the factors of the last layer only; the first
layer's contribution is dropped silently. -/
theorem kfac_tied_uses_last_layer :
    (kfacOp (α := ℚ) [[1, 1]] true [("a", [("weight", 0)]), ("b", [("weight", 0)])]
      [("a", ⟨1, fun _ _ => 1⟩), ("b", ⟨1, fun _ _ => 1⟩)] [("a", ⟨1, fun _ _ => 2⟩), ("b", ⟨1, fun _ _ => 3⟩)]).matmat
      [⟨[1, 1, 1], [1]⟩] = (.ok [⟨[1, 1, 1], [3]⟩], [⟨[1, 1, 1], [1]⟩]) := by
  simp [kfacOp, kfacMatmat, pyMapM, layerProduct, Dict.get, Dict.getE, List.lookup, listGet, weightProduct, flattenMid,
    mulRight, mulLeft, Tensor.reshape, assignAll, allSome, bind, Except.bind]

end Curvlinops
