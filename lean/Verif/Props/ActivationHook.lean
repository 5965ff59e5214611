import Verif.Spec.ActivationHook
import Mathlib.Tactic.Cases
import Mathlib.Tactic.ByContra
import Mathlib.Data.List.Forall2

/-!
# C64: activations are stored as requested, and hooks are removed
-/

namespace Curvlinops

variable {T : Type}

/-! ## Selection -/

theorem pyIndex_ok_iff (l : List T) (i : Int) (t : T) : pyIndex l i = .ok t ↔ IsAt l i t := by
  unfold pyIndex IsAt
  constructor
  · intro h
    split at h
    · rename_i hi
      split at h
      · rename_i t' ht
        simp only [Except.ok.injEq] at h
        subst h
        exact ⟨i.toNat, ht, Or.inl (by omega)⟩
      · simp at h
    · rename_i hi
      split at h
      · split at h
        · rename_i hl t' ht
          simp only [Except.ok.injEq] at h
          subst h
          exact ⟨_, ht, Or.inr ⟨by omega, by omega⟩⟩
        · simp at h
      · simp at h
  · rintro ⟨n, hn, h⟩
    have hlt : n < l.length := (List.getElem?_eq_some_iff.mp hn).1
    rcases h with h | ⟨h, hneg⟩
    · subst h
      simp [hn]
    · rw [if_neg (by omega), if_pos (by omega), show l.length - (-i).toNat = n by omega, hn]

/-- C64: the hook stores exactly the requested input or output. -/
theorem hookSelect_ok_iff (io : String) (hio : io = "input" ∨ io = "output") (idx : Int) (inputs : List T) (out : ModOut T)
    (t : T) : hookSelect io idx inputs out = .ok t ↔ IsRequested io idx inputs out t := by
  unfold hookSelect IsRequested
  rcases hio with rfl | rfl
  · cases out <;> simp [pyIndex_ok_iff]
  · cases out with
    | tensor t' =>
      by_cases h : idx = 0
      · simp [h]
      · simp [h]
    | tuple ts => simp [pyIndex_ok_iff]

/-! ## Effects of the code in the context -/

theorem runHook_lists_value (h : FwdHook T) (inputs : List T) (out : ModOut T) (l l' : Nat → List T) :
    (runHook h inputs out l).1 = (runHook h inputs out l').1 := by
  unfold runHook
  cases h with
  | store io idx d => simp only; cases hookSelect io idx inputs out <;> rfl
  | other f => simp only; rcases f inputs out with e | (_ | o) <;> rfl

theorem runHook_value (h : FwdHook T) (inputs : List T) (out : ModOut T) (l : Nat → List T) :
    (runHook h inputs out l).1 = hookValue inputs out h := by
  unfold runHook hookValue
  cases h with
  | store io idx d => simp only; cases hookSelect io idx inputs out <;> rfl
  | other f => simp only; rcases f inputs out with e | (_ | o) <;> rfl

theorem runHooks_value (inputs : List T) (hs : List (Nat × FwdHook T)) (out : ModOut T) (l : Nat → List T) :
    (runHooks inputs hs out l).1 = hooksValue inputs hs out := by
  induction hs generalizing out l with
  | nil => rfl
  | cons h hs ih =>
    unfold runHooks hooksValue
    rw [← runHook_value h.2 inputs out l]
    rcases runHook h.2 inputs out l with ⟨e | o, l'⟩
    · rfl
    · exact ih o l'

/-- The code in the context does not change the installed hooks. -/
theorem run_hooks (p : Fwd T) (w : HookWorld T) : (p.run w).2.hooks = w.hooks ∧ (p.run w).2.nextId = w.nextId := by
  induction p generalizing w with
  | ret => exact ⟨rfl, rfl⟩
  | raise => exact ⟨rfl, rfl⟩
  | call m inputs body k ihb ihk =>
    unfold Fwd.run
    have hb := ihb w
    rcases hr : body.run w with ⟨e | o, w1⟩
    · rw [hr] at hb
      simp only
      exact ⟨(ihk _ w1).1.trans hb.1, (ihk _ w1).2.trans hb.2⟩
    · rw [hr] at hb
      simp only
      rcases runHooks inputs (w1.hooks m) o w1.lists with ⟨r, l⟩
      exact ⟨(ihk _ _).1.trans hb.1, (ihk _ _).2.trans hb.2⟩

/-- The outcome is the one of the specification. -/
theorem run_value (p : Fwd T) (w : HookWorld T) : (p.run w).1 = (p.eval w.hooks).1 := by
  induction p generalizing w with
  | ret => rfl
  | raise => rfl
  | call m inputs body k ihb ihk =>
    unfold Fwd.run Fwd.eval
    have hb := ihb w
    have hh := (run_hooks body w).1
    rcases hr : body.run w with ⟨r, w1⟩
    rw [hr] at hb hh
    simp only at hb hh
    rcases he : body.eval w.hooks with ⟨r', tr⟩
    rw [he] at hb
    simp only at hb
    subst hb
    cases r with
    | error e =>
      simp only
      rw [ihk _ w1, hh]
    | ok o =>
      simp only
      rw [hh]
      have hv := runHooks_value inputs (w.hooks m) o w1.lists
      rcases hq : runHooks inputs (w.hooks m) o w1.lists with ⟨r, l⟩
      rw [hq] at hv
      simp only at hv
      rw [← hv]
      cases r with
      | error e => exact ihk _ _
      | ok o' => exact ihk _ _

/-! ## The context -/

theorem namedModules_lookup (model : Submodules) (seen : List Nat) (name : String)
    (h : name ∈ (namedModules model seen).map Prod.fst) : ∃ m, model.lookup name = some m := by
  induction model generalizing seen with
  | nil => simp [namedModules] at h
  | cons e rest ih =>
    obtain ⟨n, m⟩ := e
    rw [List.lookup_cons]
    by_cases hn : name == n
    · exact ⟨m, by simp [hn]⟩
    · simp only [hn]
      unfold namedModules at h
      split at h
      · exact ih _ h
      · simp only [List.map_cons, List.mem_cons] at h
        rcases h with h | h
        · exact absurd (by simp [h]) hn
        · exact ih _ h

/-- C64: exactly which requests the context rejects. -/
theorem storeInit_ok_iff (model : Submodules) (name io : String) (idx : Int) (d : Nat) (w : HookWorld T) :
    (∃ c, storeInit model name io idx d w = .ok c) ↔
      name ∈ (namedModules model []).map Prod.fst ∧ (io = "input" ∨ io = "output") ∧ w.lists d = [] := by
  unfold storeInit
  constructor
  · rintro ⟨c, h⟩
    split at h
    · simp at h
    split at h
    · simp at h
    split at h
    · simp at h
    rename_i h1 h2 h3
    exact ⟨not_not.mp h1, not_not.mp h2, not_not.mp h3⟩
  · rintro ⟨h1, h2, h3⟩
    exact ⟨_, by rw [if_neg (not_not.mpr h1), if_neg (not_not.mpr h2), if_neg (not_not.mpr h3)]⟩

/-- C64: rejected requests raise `ValueError` and change nothing. -/
theorem withStore_rejects (model : Submodules) (name io : String) (idx : Int) (d : Nat) (p : Fwd T) (w : HookWorld T)
    (h : ¬ (name ∈ (namedModules model []).map Prod.fst ∧ (io = "input" ∨ io = "output") ∧ w.lists d = [])) :
    withStore model name io idx d p w = (.error .valueError, w) := by
  have h' := mt (storeInit_ok_iff model name io idx d w).mp h
  have he : storeInit model name io idx d w = .error .valueError := by
    unfold storeInit at h' ⊢
    split
    · rfl
    split
    · rfl
    split
    · rfl
    rename_i h1 h2 h3
    exact absurd ⟨_, by rw [if_neg h1, if_neg h2, if_neg h3]⟩ h'
  unfold withStore
  rw [he]

/-- The world inside of the context. -/
def insideWorld (m : Nat) (io : String) (idx : Int) (d : Nat) (w : HookWorld T) : HookWorld T :=
  { w with
    hooks := fun j => if j = m then w.hooks j ++ [(w.nextId, .store io idx d)] else w.hooks j
    nextId := w.nextId + 1 }

theorem withStore_accepts (model : Submodules) (name io : String) (idx : Int) (d : Nat) (p : Fwd T) (w : HookWorld T)
    (h : name ∈ (namedModules model []).map Prod.fst ∧ (io = "input" ∨ io = "output") ∧ w.lists d = []) :
    ∃ m, model.lookup name = some m ∧ withStore model name io idx d p w =
      ((p.run (insideWorld m io idx d w)).1, removeHandle (m, w.nextId) (p.run (insideWorld m io idx d w)).2) := by
  obtain ⟨m, hm⟩ := namedModules_lookup model [] name h.1
  refine ⟨m, hm, ?_⟩
  unfold withStore storeInit
  rw [if_neg (not_not.mpr h.1), if_neg (not_not.mpr h.2.1), if_neg (not_not.mpr h.2.2)]
  simp only [storeEnter, hm]
  rfl

/-- C64: the hooks are as before, whatever the code in the context does, also if it raises. -/
theorem withStore_hooks (model : Submodules) (name io : String) (idx : Int) (d : Nat) (p : Fwd T) (w : HookWorld T)
    (hw : w.Ids) : (withStore model name io idx d p w).2.hooks = w.hooks := by
  by_cases h : name ∈ (namedModules model []).map Prod.fst ∧ (io = "input" ∨ io = "output") ∧ w.lists d = []
  · obtain ⟨m, -, he⟩ := withStore_accepts model name io idx d p w h
    rw [he]
    funext j
    simp only [removeHandle, (run_hooks p _).1, insideWorld]
    split
    · rw [List.filter_append, List.filter_eq_self.mpr]
      · simp
      · intro e he
        have := hw j e he
        simp only [ne_eq, decide_not, Bool.not_eq_true', decide_eq_false_iff_not]
        omega
    · rfl
  · rw [withStore_rejects model name io idx d p w h]

/-- The invariant on identifiers is kept. -/
theorem withStore_ids (model : Submodules) (name io : String) (idx : Int) (d : Nat) (p : Fwd T) (w : HookWorld T)
    (hw : w.Ids) : (withStore model name io idx d p w).2.Ids := by
  intro m h hm
  rw [withStore_hooks model name io idx d p w hw] at hm
  refine Nat.lt_of_lt_of_le (hw m h hm) ?_
  by_cases h : name ∈ (namedModules model []).map Prod.fst ∧ (io = "input" ∨ io = "output") ∧ w.lists d = []
  · obtain ⟨m, -, he⟩ := withStore_accepts model name io idx d p w h
    rw [he]
    simp only [removeHandle, (run_hooks p _).2, insideWorld]
    omega
  · rw [withStore_rejects model name io idx d p w h]
    exact Nat.le_refl _

/-! ## What is stored -/

theorem runHook_agree (d : Nat) (h : FwdHook T) (hu : ∀ io idx, h ≠ .store io idx d) (inputs : List T) (out : ModOut T)
    (l l' : Nat → List T) (ha : ∀ j, j ≠ d → l j = l' j) :
    (∀ j, j ≠ d → (runHook h inputs out l).2 j = (runHook h inputs out l').2 j) ∧ (runHook h inputs out l).2 d = l d := by
  unfold runHook
  cases h with
  | store io idx d' =>
    have hd : d ≠ d' := fun e => hu io idx (by rw [e])
    simp only
    cases hookSelect io idx inputs out with
    | error e => exact ⟨ha, rfl⟩
    | ok t =>
      refine ⟨fun j hj => ?_, ?_⟩
      · simp only [ha j hj]
      · simp only [if_neg hd]
  | other f =>
    simp only
    rcases f inputs out with e | (_ | o) <;> exact ⟨ha, rfl⟩

theorem runHooks_agree (d : Nat) (hs : List (Nat × FwdHook T)) (hu : ∀ h ∈ hs, ∀ io idx, h.2 ≠ .store io idx d)
    (inputs : List T) (out : ModOut T) (l l' : Nat → List T) (ha : ∀ j, j ≠ d → l j = l' j) :
    (∀ j, j ≠ d → (runHooks inputs hs out l).2 j = (runHooks inputs hs out l').2 j) ∧
      (runHooks inputs hs out l).2 d = l d := by
  induction hs generalizing out l l' with
  | nil => exact ⟨ha, rfl⟩
  | cons h hs ih =>
    unfold runHooks
    have h1 := runHook_agree d h.2 (hu h (by simp)) inputs out l l' ha
    have h2 := runHook_lists_value h.2 inputs out l l'
    rcases hr : runHook h.2 inputs out l with ⟨r, l1⟩
    rcases hr' : runHook h.2 inputs out l' with ⟨r', l1'⟩
    rw [hr, hr'] at h1 h2
    simp only at h1 h2
    subst h2
    cases r with
    | error e => exact h1
    | ok o =>
      have h3 := ih (fun h hh => hu h (by simp [hh])) o l1 l1' h1.1
      exact ⟨h3.1, h3.2.trans h1.2⟩

theorem runHooks_append (inputs : List T) (hs : List (Nat × FwdHook T)) (h : Nat × FwdHook T) (out : ModOut T)
    (l : Nat → List T) : runHooks inputs (hs ++ [h]) out l = match runHooks inputs hs out l with
      | (.error e, l) => (.error e, l)
      | (.ok o, l) => runHook h.2 inputs o l := by
  induction hs generalizing out l with
  | nil =>
    simp only [List.nil_append, runHooks]
    rcases runHook h.2 inputs out l with ⟨e | o, l'⟩ <;> rfl
  | cons a hs ih =>
    simp only [List.cons_append, runHooks]
    rcases runHook a.2 inputs out l with ⟨e | o, l'⟩
    · rfl
    · exact ih o l'

/-- The worlds outside and inside of the context while the same code runs. -/
structure Paired (m id d : Nat) (io : String) (idx : Int) (w w' : HookWorld T) : Prop where
  hooks : w'.hooks = fun j => if j = m then w.hooks j ++ [(id, .store io idx d)] else w.hooks j
  lists : ∀ j, j ≠ d → w.lists j = w'.lists j

/-- All activations of the calls `cs` exist and are `ts`. -/
def Stored (io : String) (idx : Int) (cs : List (ModCall T)) (ts : List T) : Prop :=
  List.Forall₂ (fun c t => hookSelect io idx c.inputs c.output = .ok t) cs ts

theorem Stored.append {io : String} {idx : Int} {cs cs' : List (ModCall T)} {ts ts' : List T} (h : Stored io idx cs ts)
    (h' : Stored io idx cs' ts') : Stored io idx (cs ++ cs') (ts ++ ts') := by
  induction h with
  | nil => exact h'
  | cons h _ ih => exact .cons h ih

theorem run_inside (m id d : Nat) (io : String) (idx : Int) (p : Fwd T) (w w' : HookWorld T) (hu : w.Unused d)
    (hp : Paired m id d io idx w w')
    (hs : ∀ c ∈ (p.eval w.hooks).2, c.mod = m → ∃ t, hookSelect io idx c.inputs c.output = .ok t) :
    (p.run w').1 = (p.run w).1 ∧ Paired m id d io idx (p.run w).2 (p.run w').2 ∧
      ∃ ts, (p.run w').2.lists d = w'.lists d ++ ts ∧ Stored io idx ((p.eval w.hooks).2.filter fun c => c.mod = m) ts := by
  induction p generalizing w w' with
  | ret => exact ⟨rfl, hp, [], by simp [Fwd.run], .nil⟩
  | raise => exact ⟨rfl, hp, [], by simp [Fwd.run], .nil⟩
  | call mod inputs body k ihb ihk =>
    have hv := run_value body w
    have hh := (run_hooks body w).1
    unfold Fwd.run
    unfold Fwd.eval at hs ⊢
    rcases he : body.eval w.hooks with ⟨r, tr⟩
    rw [he] at hs hv
    simp only at hv
    have hsb : ∀ c ∈ (body.eval w.hooks).2, c.mod = m → ∃ t, hookSelect io idx c.inputs c.output = .ok t := by
      rw [he]
      intro c hc hcm
      refine hs c ?_ hcm
      cases r with
      | error e => simp [hc]
      | ok o =>
        simp only
        cases hooksValue inputs (w.hooks mod) o <;> simp [hc]
    obtain ⟨b1, b2, ts, b3, b4⟩ := ihb w w' hu hp hsb
    rw [he] at b4
    rcases hr : body.run w with ⟨r1, w1⟩
    rcases hr' : body.run w' with ⟨r1', w1'⟩
    rw [hr, hr'] at b1 b2
    rw [hr'] at b3
    rw [hr] at hv hh
    simp only at b1 b2 b3 hv hh
    subst hv b1
    have hu1 : w1.Unused d := by
      unfold HookWorld.Unused
      rw [hh]
      exact hu
    cases r1' with
    | error e =>
      simp only at hs ⊢
      obtain ⟨c1, c2, ts', c3, c4⟩ := ihk (.error e) w1 w1' hu1 b2 (by
        rw [hh]
        exact fun c hc => hs c (by simp [hc]))
      refine ⟨c1, c2, ts ++ ts', by rw [c3, b3, List.append_assoc], ?_⟩
      rw [List.filter_append]
      rw [hh] at c4
      exact b4.append c4
    | ok o =>
      simp only at hs ⊢
      have hpv := runHooks_value inputs (w1.hooks mod) o w1.lists
      have hpa := runHooks_agree d (w1.hooks mod) (hu1 mod) inputs o w1.lists w1'.lists b2.lists
      have hpa' := runHooks_agree d (w1.hooks mod) (hu1 mod) inputs o w1'.lists w1'.lists (fun _ _ => rfl)
      have hpv' := runHooks_value inputs (w1.hooks mod) o w1'.lists
      rw [hh] at hpv hpv'
      rw [b2.hooks]
      rcases hq : runHooks inputs (w1.hooks mod) o w1.lists with ⟨r2, l2⟩
      rcases hq' : runHooks inputs (w1.hooks mod) o w1'.lists with ⟨r2', l2'⟩
      rw [← hh, hq] at hpv
      rw [← hh, hq'] at hpv'
      rw [hq, hq'] at hpa
      rw [hq'] at hpa'
      simp only at hpv hpv' hpa hpa'
      subst hpv
      cases hx : hooksValue inputs (w1.hooks mod) o with
      | error e =>
        rw [hx] at hpv'
        subst hpv'
        have hin : runHooks inputs (if mod = m then w1.hooks mod ++ [(id, .store io idx d)] else w1.hooks mod) o w1'.lists =
            (.error e, l2') := by
          split
          · rw [runHooks_append, hq']
          · exact hq'
        simp only [hin]
        rw [← hh, hx] at hs ⊢
        simp only at hs ⊢
        obtain ⟨c1, c2, ts', c3, c4⟩ := ihk (.error e) ⟨w1.hooks, w1.nextId, l2⟩ ⟨fun j => if j = m then w1.hooks j ++ [(id, .store io idx d)] else w1.hooks j, w1'.nextId, l2'⟩ hu1
          ⟨rfl, hpa.1⟩ (fun c hc => hs c (by simp [hc]))
        refine ⟨c1, c2, ts ++ ts', by rw [c3]; simp only; rw [hpa'.2, b3, List.append_assoc], ?_⟩
        rw [List.filter_append]
        exact b4.append c4
      | ok o' =>
        rw [hx] at hpv'
        subst hpv'
        rw [← hh, hx] at hs ⊢
        simp only at hs ⊢
        by_cases hm : mod = m
        · obtain ⟨t, ht⟩ := hs ⟨mod, inputs, o'⟩ (by simp) hm
          simp only at ht
          have hin : runHooks inputs (if mod = m then w1.hooks mod ++ [(id, .store io idx d)] else w1.hooks mod) o w1'.lists =
              (.ok o', fun j => if j = d then l2' j ++ [t] else l2' j) := by
            rw [if_pos hm, runHooks_append, hq']
            simp only [runHook, ht]
          simp only [hin]
          obtain ⟨c1, c2, ts', c3, c4⟩ := ihk (.ok o') ⟨w1.hooks, w1.nextId, l2⟩
            ⟨fun j => if j = m then w1.hooks j ++ [(id, .store io idx d)] else w1.hooks j, w1'.nextId, fun j => if j = d then l2' j ++ [t] else l2' j⟩ hu1
            ⟨rfl, fun j hj => by simp only [if_neg hj]; exact hpa.1 j hj⟩ (fun c hc => hs c (by simp [hc]))
          refine ⟨c1, c2, ts ++ [t] ++ ts', ?_, ?_⟩
          · rw [c3]
            simp only [if_true]
            rw [hpa'.2, b3]
            simp only [List.append_assoc]
          · rw [List.filter_append, List.filter_append]
            refine (b4.append ?_).append c4
            rw [List.filter_cons_of_pos (by simpa using hm)]
            exact .cons ht .nil
        · have hin : runHooks inputs (if mod = m then w1.hooks mod ++ [(id, .store io idx d)] else w1.hooks mod) o w1'.lists =
              (.ok o', l2') := by
            rw [if_neg hm]
            exact hq'
          simp only [hin]
          obtain ⟨c1, c2, ts', c3, c4⟩ := ihk (.ok o') ⟨w1.hooks, w1.nextId, l2⟩ ⟨fun j => if j = m then w1.hooks j ++ [(id, .store io idx d)] else w1.hooks j, w1'.nextId, l2'⟩ hu1
            ⟨rfl, hpa.1⟩ (fun c hc => hs c (by simp [hc]))
          refine ⟨c1, c2, ts ++ ts', by rw [c3]; simp only; rw [hpa'.2, b3, List.append_assoc], ?_⟩
          rw [List.filter_append, List.filter_append, List.filter_cons_of_neg (by simpa using hm)]
          simp only [List.filter_nil, List.append_nil]
          exact b4.append c4

/-- If an activation does not exist for some call and the code catches no exceptions, the first such call ends it. -/
theorem run_inside_fails (m id d : Nat) (io : String) (idx : Int) (p : Fwd T) (w w' : HookWorld T) (hu : w.Unused d)
    (hp : Paired m id d io idx w w') (hnc : p.NoCatch) (pre post : List (ModCall T)) (c : ModCall T) (e : PyErr)
    (htr : (p.eval w.hooks).2.filter (fun c => c.mod = m) = pre ++ c :: post)
    (hpre : ∀ c ∈ pre, ∃ t, hookSelect io idx c.inputs c.output = .ok t)
    (hc : hookSelect io idx c.inputs c.output = .error e) :
    (p.run w').1 = .error e ∧ ∃ ts, (p.run w').2.lists d = w'.lists d ++ ts ∧ Stored io idx pre ts := by
  induction p generalizing w w' pre post with
  | ret => simp [Fwd.eval] at htr
  | raise => simp [Fwd.eval] at htr
  | call mod inputs body k ihb ihk =>
    have hv := run_value body w
    have hh := (run_hooks body w).1
    unfold Fwd.run
    unfold Fwd.eval at htr
    rcases he : body.eval w.hooks with ⟨r, tr⟩
    rw [he] at htr hv
    simp only at hv
    obtain ⟨nb, ne, nk⟩ := hnc
    -- the calls inside of the body, then the others
    obtain ⟨rest, hrest⟩ : ∃ rest : List (ModCall T), tr.filter (fun c => c.mod = m) ++ rest = pre ++ c :: post ∧
        rest = List.filter (fun c => c.mod = m) (match r with
          | .error e => ((k (.error e)).eval w.hooks).2
          | .ok o => match hooksValue inputs (w.hooks mod) o with
            | .error e => ((k (.error e)).eval w.hooks).2
            | .ok o => [⟨mod, inputs, o⟩] ++ ((k (.ok o)).eval w.hooks).2) := by
      refine ⟨_, ?_, rfl⟩
      rw [← htr, ← List.filter_append]
      cases r with
      | error e => rfl
      | ok o =>
        simp only
        cases hooksValue inputs (w.hooks mod) o with
        | error e => rfl
        | ok o => simp only [List.append_assoc]
    have hsplit : (∃ as, pre = tr.filter (fun c => c.mod = m) ++ as ∧ rest = as ++ c :: post) ∨
        ∃ bs, tr.filter (fun c => c.mod = m) = pre ++ c :: bs := by
      rcases List.append_eq_append_iff.mp hrest.1 with ⟨as, h1, h2⟩ | ⟨bs, h1, h2⟩
      · exact Or.inl ⟨as, h1, h2⟩
      · cases bs with
        | nil => exact Or.inl ⟨[], by simpa using h1.symm, by simpa using h2.symm⟩
        | cons b bs =>
          simp only [List.cons_append, List.cons.injEq] at h2
          exact Or.inr ⟨bs, by rw [h1, h2.1]⟩
    rcases hsplit with ⟨as, h1, h2⟩ | ⟨bs, h1⟩
    · -- the body is complete before the failing call
      have hsb : ∀ c ∈ (body.eval w.hooks).2, c.mod = m → ∃ t, hookSelect io idx c.inputs c.output = .ok t := by
        rw [he]
        intro c hc hcm
        refine hpre c ?_
        rw [h1]
        exact List.mem_append_left _ (List.mem_filter.mpr ⟨hc, by simpa using hcm⟩)
      obtain ⟨b1, b2, ts, b3, b4⟩ := run_inside m id d io idx body w w' hu hp hsb
      rw [he] at b4
      rcases hr : body.run w with ⟨r1, w1⟩
      rcases hr' : body.run w' with ⟨r1', w1'⟩
      rw [hr, hr'] at b1 b2
      rw [hr'] at b3
      rw [hr] at hv hh
      simp only at b1 b2 b3 hv hh
      subst hv b1
      have hu1 : w1.Unused d := by
        unfold HookWorld.Unused
        rw [hh]
        exact hu
      cases r1' with
      | error e' =>
        simp only [ne, Fwd.eval, List.filter_nil] at hrest
        rw [hrest.2] at h2
        simp at h2
      | ok o =>
        simp only
        have hpa := runHooks_agree d (w1.hooks mod) (hu1 mod) inputs o w1.lists w1'.lists b2.lists
        have hpa' := runHooks_agree d (w1.hooks mod) (hu1 mod) inputs o w1'.lists w1'.lists (fun _ _ => rfl)
        have hpv' := runHooks_value inputs (w1.hooks mod) o w1'.lists
        rw [b2.hooks]
        rcases hq' : runHooks inputs (w1.hooks mod) o w1'.lists with ⟨r2', l2'⟩
        rw [hq'] at hpv' hpa hpa'
        simp only at hpv' hpa'
        subst hpv'
        have hrest2 := hrest.2
        simp only at hrest2
        rw [← hh] at hrest2
        cases hx : hooksValue inputs (w1.hooks mod) o with
        | error e' =>
          simp only [hx, ne, Fwd.eval, List.filter_nil] at hrest2
          rw [hrest2] at h2
          simp at h2
        | ok o' =>
          simp only [hx] at hrest2 hq'
          by_cases hm : mod = m
          · rw [List.filter_append, List.filter_cons_of_pos (by simpa using hm), List.filter_nil] at hrest2
            rw [hrest2] at h2
            cases as with
            | nil =>
              simp only [List.nil_append, List.cons_append, List.cons.injEq] at h2
              obtain ⟨hcc, -⟩ := h2
              rw [← hcc] at hc
              simp only at hc
              have hin : runHooks inputs (if mod = m then w1.hooks mod ++ [(id, .store io idx d)] else w1.hooks mod) o
                  w1'.lists = (.error e, l2') := by
                rw [if_pos hm, runHooks_append, hq']
                simp only [runHook, hc]
              simp only [hin, ne, Fwd.run]
              refine ⟨trivial, ts, by rw [hpa'.2, b3], ?_⟩
              rw [h1, List.append_nil]
              exact b4
            | cons a as =>
              simp only [List.cons_append, List.nil_append, List.cons.injEq] at h2
              obtain ⟨rfl, h2⟩ := h2
              obtain ⟨t, ht⟩ := hpre ⟨mod, inputs, o'⟩ (by rw [h1]; simp)
              simp only at ht
              have hin : runHooks inputs (if mod = m then w1.hooks mod ++ [(id, .store io idx d)] else w1.hooks mod) o
                  w1'.lists = (.ok o', fun j => if j = d then l2' j ++ [t] else l2' j) := by
                rw [if_pos hm, runHooks_append, hq']
                simp only [runHook, ht]
              simp only [hin]
              obtain ⟨c1, ts', c3, c4⟩ := ihk (.ok o') ⟨w1.hooks, w1.nextId, (runHooks inputs (w1.hooks mod) o w1.lists).2⟩
                ⟨fun j => if j = m then w1.hooks j ++ [(id, .store io idx d)] else w1.hooks j, w1'.nextId,
                  fun j => if j = d then l2' j ++ [t] else l2' j⟩ hu1
                ⟨rfl, fun j hj => by simp only [if_neg hj]; exact hpa.1 j hj⟩ (nk o') as post h2
                (fun c hc => hpre c (by rw [h1]; simp [hc]))
              refine ⟨c1, ts ++ [t] ++ ts', ?_, ?_⟩
              · rw [c3]
                simp only [if_true]
                rw [hpa'.2, b3]
                simp only [List.append_assoc]
              · rw [h1, show tr.filter (fun c => c.mod = m) ++ (⟨mod, inputs, o'⟩ : ModCall T) :: as =
                  tr.filter (fun c => c.mod = m) ++ [⟨mod, inputs, o'⟩] ++ as by simp]
                exact (b4.append (.cons ht .nil)).append c4
          · rw [List.filter_append, List.filter_cons_of_neg (by simpa using hm), List.filter_nil, List.nil_append] at hrest2
            rw [hrest2] at h2
            have hin : runHooks inputs (if mod = m then w1.hooks mod ++ [(id, .store io idx d)] else w1.hooks mod) o
                w1'.lists = (.ok o', l2') := by
              rw [if_neg hm]
              exact hq'
            simp only [hin]
            obtain ⟨c1, ts', c3, c4⟩ := ihk (.ok o') ⟨w1.hooks, w1.nextId, (runHooks inputs (w1.hooks mod) o w1.lists).2⟩
              ⟨fun j => if j = m then w1.hooks j ++ [(id, .store io idx d)] else w1.hooks j, w1'.nextId, l2'⟩ hu1
              ⟨rfl, hpa.1⟩ (nk o') as post h2 (fun c hc => hpre c (by rw [h1]; simp [hc]))
            refine ⟨c1, ts ++ ts', by rw [c3]; simp only; rw [hpa'.2, b3, List.append_assoc], ?_⟩
            rw [h1]
            exact b4.append c4
    · obtain ⟨c1, ts, c3, c4⟩ := ihb w w' hu hp nb pre bs (by rw [he]; exact h1) hpre
      rcases hr' : body.run w' with ⟨r1', w1'⟩
      rw [hr'] at c1 c3
      simp only at c1 c3
      subst c1
      simp only [ne, Fwd.run]
      exact ⟨trivial, ts, c3, c4⟩

/-! ## C64 -/

theorem stored_iff (io : String) (hio : io = "input" ∨ io = "output") (idx : Int) (cs : List (ModCall T)) (ts : List T) :
    Stored io idx cs ts ↔ List.Forall₂ (fun c t => IsRequested io idx c.inputs c.output t) cs ts := by
  unfold Stored
  simp only [hookSelect_ok_iff io hio]

theorem insideWorld_paired (m d : Nat) (io : String) (idx : Int) (w : HookWorld T) :
    Paired m w.nextId d io idx w (insideWorld m io idx d w) := ⟨rfl, fun _ _ => rfl⟩

/-- C64: the context does not change what the code in it does, and the destination contains exactly the requested tensor of
each completed call of the module, in order. Other lists are not affected. -/
theorem withStore_stores (model : Submodules) (name io : String) (idx : Int) (d : Nat) (p : Fwd T) (w : HookWorld T)
    (hu : w.Unused d) (hname : name ∈ (namedModules model []).map Prod.fst) (hio : io = "input" ∨ io = "output")
    (hd : w.lists d = []) (m : Nat) (hm : model.lookup name = some m)
    (hex : ∀ c ∈ (p.eval w.hooks).2, c.mod = m → ∃ t, IsRequested io idx c.inputs c.output t) :
    (withStore model name io idx d p w).1 = (p.run w).1 ∧
      List.Forall₂ (fun c t => IsRequested io idx c.inputs c.output t) ((p.eval w.hooks).2.filter fun c => c.mod = m)
        ((withStore model name io idx d p w).2.lists d) ∧
      ∀ j, j ≠ d → (withStore model name io idx d p w).2.lists j = (p.run w).2.lists j := by
  obtain ⟨m', hm', he⟩ := withStore_accepts model name io idx d p w ⟨hname, hio, hd⟩
  obtain rfl : m' = m := Option.some.inj (hm'.symm.trans hm)
  obtain ⟨h1, h2, ts, h3, h4⟩ := run_inside m' w.nextId d io idx p w _ hu (insideWorld_paired m' d io idx w)
    (fun c hc hcm => (hex c hc hcm).imp fun t ht => (hookSelect_ok_iff io hio _ _ _ _).mpr ht)
  rw [he]
  refine ⟨h1, ?_, fun j hj => (h2.lists j hj).symm⟩
  show List.Forall₂ _ _ ((p.run (insideWorld m' io idx d w)).2.lists d)
  rw [h3, show (insideWorld m' io idx d w).lists d = [] from hd, List.nil_append]
  exact (stored_iff io hio idx _ _).mp h4

/-- The exceptions of the hook. -/
theorem hookSelect_error (io : String) (idx : Int) (inputs : List T) (out : ModOut T) (e : PyErr)
    (h : hookSelect io idx inputs out = .error e) : e = .valueError ∨ e = .indexError := by
  have hpy : ∀ (l : List T) (i : Int), pyIndex l i = .error e → e = .indexError := by
    intro l i h
    unfold pyIndex at h
    split at h
    · split at h
      · simp at h
      · exact (Except.error.inj h).symm
    · split at h
      · split at h
        · simp at h
        · exact (Except.error.inj h).symm
      · exact (Except.error.inj h).symm
  unfold hookSelect at h
  split at h
  · split at h
    · exact Or.inl (Except.error.inj h).symm
    · split at h
      · exact Or.inr (hpy _ _ h)
      · simp at h
  · split at h <;> exact Or.inr (hpy _ _ h)

/-- C64: if a call of the module has no such input or output, the first such call raises (`ValueError` or `IndexError`);
unless the code catches it, the exception leaves the context, and the destination contains the tensors of the calls before. -/
theorem withStore_missing (model : Submodules) (name io : String) (idx : Int) (d : Nat) (p : Fwd T) (w : HookWorld T)
    (hu : w.Unused d) (hname : name ∈ (namedModules model []).map Prod.fst) (hio : io = "input" ∨ io = "output")
    (hd : w.lists d = []) (m : Nat) (hm : model.lookup name = some m) (hnc : p.NoCatch) (pre post : List (ModCall T))
    (c : ModCall T) (htr : (p.eval w.hooks).2.filter (fun c => c.mod = m) = pre ++ c :: post)
    (hpre : ∀ c ∈ pre, ∃ t, IsRequested io idx c.inputs c.output t)
    (hc : ¬ ∃ t, IsRequested io idx c.inputs c.output t) :
    ∃ e, (e = .valueError ∨ e = .indexError) ∧ (withStore model name io idx d p w).1 = .error e ∧
      List.Forall₂ (fun c t => IsRequested io idx c.inputs c.output t) pre ((withStore model name io idx d p w).2.lists d) := by
  obtain ⟨m', hm', he⟩ := withStore_accepts model name io idx d p w ⟨hname, hio, hd⟩
  obtain rfl : m' = m := Option.some.inj (hm'.symm.trans hm)
  cases hsel : hookSelect io idx c.inputs c.output with
  | ok t => exact absurd ⟨t, (hookSelect_ok_iff io hio _ _ _ _).mp hsel⟩ hc
  | error e =>
    obtain ⟨h1, ts, h3, h4⟩ := run_inside_fails m' w.nextId d io idx p w _ hu (insideWorld_paired m' d io idx w) hnc pre post c e
      htr (fun c hc => (hpre c hc).imp fun t ht => (hookSelect_ok_iff io hio _ _ _ _).mpr ht) hsel
    refine ⟨e, hookSelect_error io idx _ _ e hsel, by rw [he]; exact h1, ?_⟩
    rw [he]
    show List.Forall₂ _ _ ((p.run (insideWorld m' io idx d w)).2.lists d)
    rw [h3, show (insideWorld m' io idx d w).lists d = [] from hd, List.nil_append]
    exact (stored_iff io hio idx _ _).mp h4

/-- C64 (violation in a corner): a module that is used under two names is found under its first name only; the second name,
which `get_submodule` knows, is rejected. -/
theorem shared_module_name_rejected (w : HookWorld T) (p : Fwd T) (h0 : w.lists 0 = []) :
    let model : Submodules := [("", 0), ("encoder", 1), ("decoder", 1)]
    model.lookup "decoder" = some 1 ∧ withStore model "decoder" "output" 0 0 p w = (.error .valueError, w) ∧
      ∃ c, storeInit model "encoder" "output" 0 0 w = .ok c := by
  intro model
  refine ⟨rfl, withStore_rejects model _ _ _ _ _ _ ?_, ?_⟩
  · intro h
    exact absurd h.1 (by decide)
  · exact (storeInit_ok_iff _ _ _ _ _ _).mpr ⟨by decide, Or.inr rfl, h0⟩

theorem namedModules_distinct (model : Submodules) (hd : (model.map Prod.snd).Nodup) (seen : List Nat)
    (hs : ∀ e ∈ model, e.2 ∉ seen) : namedModules model seen = model := by
  induction model generalizing seen with
  | nil => rfl
  | cons e rest ih =>
    obtain ⟨n, m⟩ := e
    simp only [List.map_cons, List.nodup_cons] at hd
    unfold namedModules
    rw [if_neg (hs (n, m) (by simp))]
    rw [ih hd.2 (m :: seen)]
    intro e he
    simp only [List.mem_cons, not_or]
    exact ⟨fun h => hd.1 (h ▸ List.mem_map_of_mem he), hs e (by simp [he])⟩

/-- C64: in a model without shared modules, exactly the names of modules are accepted. -/
theorem storeInit_names (model : Submodules) (hd : (model.map Prod.snd).Nodup) (name io : String) (idx : Int) (d : Nat)
    (w : HookWorld T) : (∃ c, storeInit model name io idx d w = .ok c) ↔
      (∃ m, (name, m) ∈ model) ∧ (io = "input" ∨ io = "output") ∧ w.lists d = [] := by
  rw [storeInit_ok_iff, namedModules_distinct model hd [] (by simp)]
  simp

/-- A model with modules `a` (called twice) and `b`; `b` crashes after the calls of `a`. -/
def crashingPass : Fwd Nat :=
  .call 0 [10] (.call 1 [10] (.ret (.tensor 11)) fun
    | .error e => .raise e
    | .ok _ => .call 1 [11] (.ret (.tuple [12, 13])) fun
      | .error e => .raise e
      | .ok _ => .call 2 [13] (.raise .runtimeError) fun
        | .error e => .raise e
        | .ok o => .ret o) fun
    | .error e => .raise e
    | .ok o => .ret o

/-- The inputs of both calls are stored, the crash propagates and the hook is removed. -/
example : let w : HookWorld Nat := ⟨fun _ => [], 5, fun _ => []⟩
    let r := withStore [("", 0), ("a", 1), ("b", 2)] "a" "input" 0 3 crashingPass w
    r.1 = .error .runtimeError ∧ r.2.lists 3 = [10, 11] ∧ ∀ m, r.2.hooks m = [] := by
  refine ⟨rfl, rfl, fun m => ?_⟩
  rw [withStore_hooks]
  intro m h hh
  cases hh

/-- The output index 1 does not exist for the first call, which returns a single tensor. -/
example : let w : HookWorld Nat := ⟨fun _ => [], 5, fun _ => []⟩
    (withStore [("", 0), ("a", 1), ("b", 2)] "a" "output" 1 3 crashingPass w).1 = .error .valueError := rfl

/-! ## The activation that is used, and the constructor of the operator -/

/-- C64: the activation is the requested tensor of the last call of the module in the forward pass; without a call
`IndexError` is raised. -/
theorem fetchActivation_last (model : Submodules) (name io : String) (idx : Int) (fresh : Nat) (p : Fwd T) (w : HookWorld T)
    (hu : w.Unused fresh) (hname : name ∈ (namedModules model []).map Prod.fst) (hio : io = "input" ∨ io = "output")
    (m : Nat) (hm : model.lookup name = some m) (out : ModOut T) (hp : (p.eval w.hooks).1 = .ok out)
    (hex : ∀ c ∈ (p.eval w.hooks).2, c.mod = m → ∃ t, IsRequested io idx c.inputs c.output t) :
    match ((p.eval w.hooks).2.filter fun c => c.mod = m).getLast? with
    | none => (fetchActivation model (name, io, idx) fresh p w).1 = .error .indexError
    | some c => ∃ t, (fetchActivation model (name, io, idx) fresh p w).1 = .ok t ∧ IsRequested io idx c.inputs c.output t := by
  obtain ⟨h1, h2, -⟩ := withStore_stores model name io idx fresh p
    { w with lists := fun j => if j = fresh then [] else w.lists j } hu hname hio (by simp) m hm hex
  rw [run_value] at h1
  simp only [hp] at h1
  unfold fetchActivation
  simp only
  rcases hw : withStore model name io idx fresh p { w with lists := fun j => if j = fresh then [] else w.lists j } with ⟨r, w'⟩
  rw [hw] at h1 h2
  simp only at h1 h2
  subst h1
  simp only
  revert h2
  generalize (List.filter (fun c => decide (c.mod = m)) (Fwd.eval w.hooks p).snd) = cs
  generalize w'.lists fresh = ts
  intro h2
  unfold popLast
  rcases List.eq_nil_or_concat cs with rfl | ⟨cs', c, rfl⟩
  · cases h2
    rfl
  · obtain ⟨ts', t, rfl⟩ : ∃ ts' t, ts = ts' ++ [t] := by
      rcases List.eq_nil_or_concat ts with rfl | ⟨ts', t, rfl⟩
      · have := h2.length_eq
        simp at this
      · exact ⟨ts', t, List.concat_eq_append⟩
    simp only [List.concat_eq_append] at h2 ⊢
    simp only [List.getLast?_append, List.getLast?_singleton, Option.some_or]
    refine ⟨t, rfl, ?_⟩
    have := (List.forall₂_reverse_iff.mpr h2)
    simp only [List.reverse_append, List.reverse_cons, List.reverse_nil, List.nil_append, List.cons_append] at this
    cases this
    assumption

/-- C64: the check for a single batch raises `ValueError` exactly for data with more than one batch (and `StopIteration` for
empty data). -/
theorem singleBatchCheck_spec {β : Type} (batches : List β) :
    (singleBatchCheck batches = .error .valueError ↔ 1 < batches.length) ∧
    (singleBatchCheck batches = .error .stopIteration ↔ batches.length = 0) ∧
    (singleBatchCheck batches = .ok () ↔ batches.length = 1) := by
  rcases batches with _ | ⟨a, _ | ⟨b, rest⟩⟩
  · simp [singleBatchCheck, pyNext, bind, Except.bind]
  · simp [singleBatchCheck, pyNext, bind, Except.bind]
  · simp [singleBatchCheck, pyNext, bind, Except.bind]

/-- C64: for re-iterable data with tensors as inputs, the constructor's checks raise `ValueError` exactly for data with more
than one batch. -/
theorem activationHessianInit_spec_partial (batches : List FirstInput) (hb : ∀ b ∈ batches, b = .nonMapping) (n : Nat) :
    (activationHessianInit ⟨batches, false⟩ n = .error .valueError ↔ 1 < batches.length) ∧
    (activationHessianInit ⟨batches, false⟩ n = .error .stopIteration ↔ batches.length = 0) ∧
    (activationHessianInit ⟨batches, false⟩ n = .ok [(n : Int)] ↔ batches.length = 1) := by
  rcases batches with _ | ⟨a, _ | ⟨b, rest⟩⟩
  · simp [activationHessianInit, singleBatchCheck, pyNext, bind, Except.bind]
  · have ha := hb a (by simp)
    subst ha
    simp [activationHessianInit, singleBatchCheck, pyNext, bind, Except.bind, initBlockSizes]
  · simp [activationHessianInit, singleBatchCheck, pyNext, bind, Except.bind]

/-- C64 is violated for dict-like inputs, which the signature allows: a single batch is rejected with `ValueError`, because
the base class then wants a `batch_size_fn`, which this class cannot be given. -/
theorem activationHessian_mapping_rejected (n : Nat) :
    activationHessianInit ⟨[.mapping], false⟩ n = .error .valueError ∧
    ∀ b, activationHessianInit ⟨[b], true⟩ n = .error .stopIteration := by
  refine ⟨rfl, fun b => rfl⟩

example : activationHessianInit ⟨[.nonMapping], false⟩ 4 = .ok [4] := rfl

example : activationHessianInit ⟨[.nonMapping, .nonMapping], false⟩ 4 = .error .valueError := rfl

end Curvlinops
