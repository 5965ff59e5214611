import Verif.Model.KfacMapping
import Mathlib.Data.List.Perm.Subperm

/-!
# C28: the mapping from layers and parameter names to positions
-/

namespace Curvlinops

theorem Dict.set_new {β : Type _} (d : Dict β) (k : String) (v : β) (h : k ∉ d.keys) :
    d.set k v = d ++ [(k, v)] := by
  induction d with
  | nil => rfl
  | cons e d ih =>
    obtain ⟨k', v'⟩ := e
    simp only [Dict.keys, List.map_cons, List.mem_cons, not_or] at h
    simp only [Dict.set, if_neg (Ne.symm h.1)]
    rw [ih h.2]
    rfl

/-- The positions recorded for one module. -/
def ownPositions (ids : List Nat) (ps : List (String × Nat)) : Dict Nat :=
  (ps.filter fun p => decide (p.2 ∈ ids)).map fun p => (p.1, ids.idxOf p.2)

theorem paramLoop_eq (ids : List Nat) (ps : List (String × Nat)) (pos : Dict Nat) (proc : List Nat)
    (hnd : (pos.keys ++ ps.map Prod.fst).Nodup) :
    paramLoop ids ps pos proc =
      (pos ++ ownPositions ids ps, proc ++ (ps.map Prod.snd).filter fun i => decide (i ∈ ids)) := by
  induction ps generalizing pos proc with
  | nil => simp [paramLoop, ownPositions]
  | cons p ps ih =>
    obtain ⟨name, id⟩ := p
    have hnew : name ∉ pos.keys := by
      intro h
      rw [List.nodup_append] at hnd
      exact hnd.2.2 name h name (by simp) rfl
    by_cases h : id ∈ ids
    · simp only [paramLoop, h, if_true]
      rw [Dict.set_new _ _ _ hnew, ih]
      · simp [ownPositions, h]
      · simpa [Dict.keys] using hnd
    · simp only [paramLoop, h, if_false]
      rw [ih]
      · simp [ownPositions, h]
      · exact hnd.sublist (List.Sublist.append (List.Sublist.refl _) (List.sublist_cons_self _ _))

/-- The modules that appear in the mapping. -/
def Mod.relevant (ids : List Nat) (m : Mod) : Bool := m.supported && m.params.any fun p => decide (p.2 ∈ ids)

theorem moduleLoop_eq (ids : List Nat) (ms : List Mod) (positions : Dict (Dict Nat)) (proc : List Nat)
    (hnd : (positions.keys ++ ms.map Mod.name).Nodup) (hps : ∀ m ∈ ms, (m.params.map Prod.fst).Nodup) :
    moduleLoop ids ms positions proc =
      (positions ++ (ms.filter (Mod.relevant ids)).map (fun m => (m.name, ownPositions ids m.params)),
        proc ++ (ms.filter (Mod.relevant ids)).flatMap fun m =>
          (m.params.map Prod.snd).filter fun i => decide (i ∈ ids)) := by
  induction ms generalizing positions proc with
  | nil => simp [moduleLoop]
  | cons m ms ih =>
    have hnew : m.name ∉ positions.keys := by
      intro h
      rw [List.nodup_append] at hnd
      exact hnd.2.2 m.name h m.name (by simp) rfl
    have hrel : (m.supported && m.params.any (fun p => decide (p.2 ∈ ids))) = m.relevant ids := rfl
    by_cases h : m.relevant ids = true
    · simp only [moduleLoop, hrel, h, if_true]
      rw [paramLoop_eq ids m.params [] proc (by simpa [Dict.keys] using hps m (by simp)), Dict.set_new _ _ _ hnew, ih]
      · simp [h]
      · simpa [Dict.keys] using hnd
      · exact fun m' hm' => hps m' (by simp [hm'])
    · simp only [moduleLoop, hrel, h, Bool.false_eq_true, if_false]
      rw [ih positions proc]
      · simp [h]
      · exact hnd.sublist (List.Sublist.append (List.Sublist.refl _) (List.sublist_cons_self _ _))
      · exact fun m' hm' => hps m' (by simp [hm'])

/-- A parameter is owned by a supported layer. -/
def Owned (mods : List Mod) (id : Nat) : Prop :=
  ∃ m ∈ mods, m.supported = true ∧ ∃ name, (name, id) ∈ m.params

theorem mem_processed (ids : List Nat) (mods : List Mod) (id : Nat) :
    (id ∈ (mods.filter (Mod.relevant ids)).flatMap fun m =>
      (m.params.map Prod.snd).filter fun i => decide (i ∈ ids)) ↔ id ∈ ids ∧ Owned mods id := by
  simp only [List.mem_flatMap, List.mem_filter, List.mem_map, decide_eq_true_eq, Owned]
  constructor
  · rintro ⟨m, ⟨hm, hr⟩, ⟨⟨name, i⟩, hp, rfl⟩, hi⟩
    simp only [Mod.relevant, Bool.and_eq_true] at hr
    exact ⟨hi, m, hm, hr.1, name, hp⟩
  · rintro ⟨hi, m, hm, hs, name, hp⟩
    refine ⟨m, ⟨hm, ?_⟩, ⟨(name, id), hp, rfl⟩, hi⟩
    simp only [Mod.relevant, hs, Bool.true_and, List.any_eq_true, decide_eq_true_eq]
    exact ⟨_, hp, hi⟩

theorem dedup_length_eq_iff (l ids : List Nat) (h : ∀ i ∈ l, i ∈ ids) :
    l.dedup.length = ids.length ↔ ids.Nodup ∧ ∀ i ∈ ids, i ∈ l := by
  have hsub : l.dedup ⊆ ids := fun i hi => h i (List.mem_dedup.mp hi)
  constructor
  · intro hlen
    have hp : l.dedup.Perm ids :=
      (List.subperm_of_subset (List.nodup_dedup l) hsub).perm_of_length_le (by omega)
    exact ⟨hp.nodup_iff.mp (List.nodup_dedup l), fun i hi => List.mem_dedup.mp (hp.mem_iff.mpr hi)⟩
  · rintro ⟨hnd, hall⟩
    refine (List.Perm.length_eq ?_)
    exact (List.perm_ext_iff_of_nodup (List.nodup_dedup l) hnd).mpr fun i =>
      ⟨fun hi => hsub hi, fun hi => List.mem_dedup.mpr (hall i hi)⟩

/-- C28: construction raises `NotImplementedError` exactly if the parameters contain a duplicate or a parameter that
no supported layer owns, and raises nothing else. -/
theorem computeMapping_raises_iff (ids : List Nat) (mods : List Mod) (hnames : (mods.map Mod.name).Nodup)
    (hps : ∀ m ∈ mods, (m.params.map Prod.fst).Nodup) :
    (computeMapping ids mods = .error .notImplementedError ↔ ¬ ids.Nodup ∨ ∃ id ∈ ids, ¬ Owned mods id) ∧
    ∀ e, computeMapping ids mods = .error e → e = .notImplementedError := by
  have hproc := dedup_length_eq_iff ((mods.filter (Mod.relevant ids)).flatMap fun m =>
      (m.params.map Prod.snd).filter fun i => decide (i ∈ ids)) ids
    fun i hi => ((mem_processed ids mods i).mp hi).1
  unfold computeMapping
  rw [moduleLoop_eq ids mods [] [] (by simpa [Dict.keys] using hnames) hps]
  simp only [List.nil_append]
  constructor
  · split_ifs with h
    · simp only [true_iff]
      rw [ne_eq, hproc, not_and_or] at h
      refine h.imp id fun h => ?_
      push Not at h
      obtain ⟨i, hi, hn⟩ := h
      exact ⟨i, hi, fun ho => hn ((mem_processed ids mods i).mpr ⟨hi, ho⟩)⟩
    · simp only [false_iff]
      rw [ne_eq, not_not, hproc] at h
      rintro (hn | ⟨i, hi, hn⟩)
      · exact hn h.1
      · exact hn ((mem_processed ids mods i).mp (h.2 i hi)).2
  · intro e h
    split_ifs at h
    cases h
    rfl

/-- C28: in the mapping, layer `name` has an entry exactly if it is a supported layer with one of the parameters,
and then it maps each of its parameter names to the position of that parameter and nothing else. -/
theorem computeMapping_entries (ids : List Nat) (mods : List Mod) (hnames : (mods.map Mod.name).Nodup)
    (hps : ∀ m ∈ mods, (m.params.map Prod.fst).Nodup) (mapping : Dict (Dict Nat))
    (h : computeMapping ids mods = .ok mapping) :
    mapping.keys.Nodup ∧
    (∀ name inner, (name, inner) ∈ mapping ↔
      ∃ m ∈ mods, m.name = name ∧ m.supported = true ∧ inner = ownPositions ids m.params ∧ inner ≠ []) ∧
    (∀ m ∈ mods, ∀ pname pos, (pname, pos) ∈ ownPositions ids m.params ↔
      ∃ id, (pname, id) ∈ m.params ∧ ids[pos]? = some id) ∧
    (∀ pos < ids.length, ∃ name inner pname, (name, inner) ∈ mapping ∧ (pname, pos) ∈ inner) := by
  have herr := (computeMapping_raises_iff ids mods hnames hps).1
  rw [h] at herr
  simp only [reduceCtorEq, false_iff, not_or, not_not, not_exists, not_and] at herr
  obtain ⟨hnd, hown⟩ := herr
  have hm : mapping = (mods.filter (Mod.relevant ids)).map fun m => (m.name, ownPositions ids m.params) := by
    unfold computeMapping at h
    rw [moduleLoop_eq ids mods [] [] (by simpa [Dict.keys] using hnames) hps] at h
    simp only [List.nil_append] at h
    split_ifs at h
    cases h
    rfl
  have hpos : ∀ m ∈ mods, ∀ pname pos, (pname, pos) ∈ ownPositions ids m.params ↔
      ∃ id, (pname, id) ∈ m.params ∧ ids[pos]? = some id := by
    intro m _ pname pos
    simp only [ownPositions, List.mem_map, List.mem_filter, decide_eq_true_eq, Prod.mk.injEq, Prod.exists]
    constructor
    · rintro ⟨n, id, ⟨hp, hi⟩, rfl, rfl⟩
      exact ⟨id, hp, by rw [List.getElem?_eq_getElem (List.idxOf_lt_length_iff.mpr hi), List.getElem_idxOf]⟩
    · rintro ⟨id, hp, hi⟩
      obtain ⟨hlt, rfl⟩ := List.getElem?_eq_some_iff.mp hi
      exact ⟨pname, ids[pos], ⟨hp, List.getElem_mem hlt⟩, rfl, hnd.idxOf_getElem pos hlt⟩
  have hrel : ∀ m : Mod, m.relevant ids = true ↔ m.supported = true ∧ ownPositions ids m.params ≠ [] := by
    intro m
    simp only [Mod.relevant, Bool.and_eq_true, List.any_eq_true, decide_eq_true_eq, ownPositions, ne_eq,
      List.map_eq_nil_iff, List.filter_eq_nil_iff, not_forall, not_not, exists_prop]
  have hentry : ∀ name inner, (name, inner) ∈ mapping ↔
      ∃ m ∈ mods, m.name = name ∧ m.supported = true ∧ inner = ownPositions ids m.params ∧ inner ≠ [] := by
    intro name inner
    rw [hm]
    simp only [List.mem_map, List.mem_filter, Prod.mk.injEq, hrel]
    constructor
    · rintro ⟨m, ⟨h1, h2, h3⟩, rfl, rfl⟩
      exact ⟨m, h1, rfl, h2, rfl, h3⟩
    · rintro ⟨m, h1, rfl, h2, rfl, h3⟩
      exact ⟨m, ⟨h1, h2, h3⟩, rfl, rfl⟩
  refine ⟨?_, hentry, hpos, fun pos hlt => ?_⟩
  · have : mapping.keys = (mods.filter (Mod.relevant ids)).map Mod.name := by
      rw [hm, Dict.keys, List.map_map]; rfl
    rw [this]
    exact hnames.sublist (List.filter_sublist.map _)
  · obtain ⟨m, hmem, hs, pname, hp⟩ := hown ids[pos] (List.getElem_mem hlt)
    have hin := (hpos m hmem pname pos).mpr ⟨_, hp, List.getElem?_eq_getElem hlt⟩
    exact ⟨m.name, _, pname, (hentry _ _).mpr ⟨m, hmem, rfl, hs, rfl, List.ne_nil_of_mem hin⟩, hin⟩

/-- Remark on C28: parameters shared by two supported layers are accepted, and both layers record the same
position. -/
theorem computeMapping_tied : ∃ mods mapping, computeMapping [7] mods = .ok mapping ∧
    mapping = [("a", [("weight", 0)]), ("b", [("weight", 0)])] :=
  ⟨[⟨"a", true, [("weight", 7)]⟩, ⟨"b", true, [("weight", 7)]⟩], _, by decide, rfl⟩

/-- A network with two linear layers and a normalization layer; parameters 10-13 and 20. -/
def exampleMods : List Mod :=
  [⟨"", false, [("0.weight", 10), ("0.bias", 11), ("1.weight", 20), ("2.weight", 12), ("2.bias", 13)]⟩,
   ⟨"0", true, [("weight", 10), ("bias", 11)]⟩, ⟨"1", false, [("weight", 20)]⟩,
   ⟨"2", true, [("weight", 12), ("bias", 13)]⟩]

/-- C28: a subset of the parameters in another order. -/
example : computeMapping [12, 11, 10] exampleMods =
    .ok [("0", [("weight", 2), ("bias", 1)]), ("2", [("weight", 0)])] := by decide

example : computeMapping [12, 11, 20] exampleMods = .error .notImplementedError :=
  ((computeMapping_raises_iff _ exampleMods (by decide) (by decide)).1).mpr
    (Or.inr ⟨20, by decide, by rintro ⟨m, hm, hs, n, hn⟩; revert hm hs hn; simp [exampleMods]; rintro (h|h|h|h) <;> subst h <;> simp⟩)

end Curvlinops
