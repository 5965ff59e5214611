import Verif.Model.KfacInverseSystem
import Verif.Props.KfacInverseFresh
import Verif.Props.KfacInverseState

/-!
# C84: the KFAC inverse follows its KFAC operator
-/

namespace Curvlinops

variable {Θ B G : Type}

/-- C84: every inverse returns what a new inverse of its KFAC operator would return. -/
def InvSys.Follows (la : LinAlg) (dt : FloatType) (s : InvSys Θ B G) : Prop :=
  ∀ j X fault, (s.product la dt j X fault).1 = s.newProduct la dt j X fault

/-! ## Without caching -/

theorem invLoop_no_cache (la : LinAlg) (cfg : InvCfg) (hc : cfg.cache = false) (dt : FloatType) (sep : Bool)
    (inCov gradCov : Dict (Factor ℝ)) (mapping : Dict (Dict Nat)) (X : List (Tensor ℝ)) (k : Dict KInv) :
    (invLoop la cfg dt sep inCov gradCov mapping X k).2.2 = k := by
  induction mapping generalizing X with
  | nil => rfl
  | cons e rest ih =>
    obtain ⟨name, pos⟩ := e
    have h : (computeOrGet la cfg dt inCov gradCov k name).2 = k := by
      unfold computeOrGet
      cases k.get name with
      | some inv => rfl
      | none =>
        simp only [hc]
        cases computeInverseFactors la cfg dt (inCov.get name) (gradCov.get name) <;> rfl
    rw [invLoop]
    rcases hr : computeOrGet la cfg dt inCov gradCov k name with ⟨_ | inv, k'⟩
    · rw [hr] at h; exact h
    · rw [hr] at h
      simp only at h
      subst h
      simp only
      cases invLayer cfg sep inv X pos with
      | error e => rfl
      | ok ws => exact ih _

/-- No inverse caches, and nothing is cached. -/
def InvSys.Uncached (s : InvSys Θ B G) : Prop := (∀ r ∈ s.invs, r.cfg.cache = false) ∧ ∀ n, s.caches n = []

theorem InvSys.Uncached.follows {la : LinAlg} {dt : FloatType} {s : InvSys Θ B G} (h : s.Uncached) : s.Follows la dt := by
  intro j X f
  unfold InvSys.product InvSys.newProduct
  have : s = { s with caches := fun _ => [] } := by
    obtain ⟨heap, caches, kfacs, invs⟩ := s
    have : caches = fun _ => [] := funext h.2
    rw [this]
  cases s.invs[j]? with
  | none => rfl
  | some r => simp only; rw [← this]

theorem InvSys.Uncached.step {la : LinAlg} {dt : FloatType} {s : InvSys Θ B G} (h : s.Uncached) (c : InvCall Θ)
    (hc : ∀ j sd, c = .loadInv j sd → sd.cache = false) : (s.step la dt c).Uncached := by
  cases c with
  | kfac i c f =>
    simp only [InvSys.step]
    cases s.kfacs[i]? with
    | none => exact h
    | some p => exact h
  | loadKfac i sd =>
    simp only [InvSys.step]
    cases s.kfacs[i]? with
    | none => exact h
    | some p => exact h
  | product j X f =>
    simp only [InvSys.step, InvSys.product]
    cases hj : s.invs[j]? with
    | none => exact h
    | some r =>
      simp only [InvSys.matmat]
      cases s.kfacs[r.kfac]? with
      | none => exact h
      | some p =>
        obtain ⟨w, o⟩ := p
        refine ⟨h.1, fun n => ?_⟩
        simp only [Function.update_apply]
        split
        · have hr := h.1 r (List.mem_of_getElem? hj)
          rw [h.2 r.ref]
          unfold KInvState.matmat
          rcases ensureKfac w f (o.value s.heap) with ⟨_ | u, A⟩
          · rfl
          · simp only
            have := invLoop_no_cache la r.cfg hr dt A.cfg.sep A.inCov A.gradCov w.mapping X []
            rcases hl : invLoop la r.cfg dt A.cfg.sep A.inCov A.gradCov w.mapping X [] with ⟨_ | u, X', k⟩
            · rw [hl] at this; exact this
            · rw [hl] at this; exact this
        · exact h.2 n
  | loadInv j sd =>
    simp only [InvSys.step]
    cases hj : s.invs[j]? with
    | none => exact h
    | some r =>
      simp only
      cases s.kfacs[r.kfac]? with
      | none => exact h
      | some p =>
        obtain ⟨w, o⟩ := p
        refine ⟨fun r' hr' => ?_, h.2⟩
        simp only at hr'
        rcases List.mem_or_eq_of_mem_set hr' with hr' | rfl
        · exact h.1 r' hr'
        · simp only [KInvObj.load]
          rcases o.load w s.heap sd.A with ⟨_ | u, A⟩
          · exact h.1 r (List.mem_of_getElem? hj)
          · exact hc j sd rfl

/-- C84 without caching: if no inverse caches, every inverse follows its KFAC operator after every sequence of calls:
products and properties of KFAC operators, also interrupted, uses of the model, products with inverses, and loading of
any state dictionaries into KFAC operators, and of state dictionaries with `cache=False` into inverses. (Missing:
caching, see `inverse_stale` and `inverse_follows_products_partial`.) -/
theorem inverse_follows_uncached_partial (la : LinAlg) (dt : FloatType) (s : InvSys Θ B G) (h : s.Uncached)
    (cs : List (InvCall Θ)) (hcs : ∀ j sd, .loadInv j sd ∈ cs → sd.cache = false) : (s.run la dt cs).Follows la dt := by
  have : (s.run la dt cs).Uncached := by
    unfold InvSys.run
    induction cs generalizing s with
    | nil => exact h
    | cons c cs ih =>
      rw [List.foldl_cons]
      exact ih _ (h.step c fun j sd e => hcs j sd (by rw [e]; simp)) fun j sd hm => hcs j sd (by simp [hm])
  exact this.follows

/-! ## With caching -/

/-- States that uninterrupted calls reach from the KFAC operators `init`, without loading of state dictionaries. -/
structure InvSys.Consistent (la : LinAlg) (dt : FloatType) (init : List (KWorld Θ B G × KState Θ)) (s : InvSys Θ B G) :
    Prop where
  refs : ∀ (i i' : Nat) (w : KWorld Θ B G) (o : KObj Θ) (w' : KWorld Θ B G) (o' : KObj Θ), s.kfacs[i]? = some (w, o) → s.kfacs[i']? = some (w', o') → o.ref = o'.ref → i = i'
  settled : ∀ (i : Nat) (w : KWorld Θ B G) (o : KObj Θ), s.kfacs[i]? = some (w, o) → ∃ s₀, init[i]? = some (w, s₀) ∧
    (o.value s.heap = s₀ ∨ Settled w s₀ (o.value s.heap))
  cacheRefs : ∀ (j j' : Nat) (r r' : InvRec), s.invs[j]? = some r → s.invs[j']? = some r' → r.ref = r'.ref → j = j'
  cached : ∀ (j : Nat) (r : InvRec) (w : KWorld Θ B G) (s₀ : KState Θ), s.invs[j]? = some r → init[r.kfac]? = some (w, s₀) →
    CacheOk la r.cfg dt (w.factors s₀).1 (w.factors s₀).2 (s.caches r.ref)

/-- The inverse's product on such states. -/
theorem matmat_consistent (w : KWorld Θ B G) (la : LinAlg) (dt : FloatType) (s₀ A : KState Θ) (hf : s₀.IsFresh)
    (hg : w.Good s₀.cfg) (hA : A = s₀ ∨ Settled w s₀ A) (cfg : InvCfg) (k : Dict KInv)
    (hk : CacheOk la cfg dt (w.factors s₀).1 (w.factors s₀).2 k) (X : List (Tensor ℝ)) :
    (KInvState.matmat w la dt none X ⟨A, cfg, k⟩).1.1 = (KInvState.matmat w la dt none X ⟨A, cfg, []⟩).1.1 ∧
    Settled w s₀ (KInvState.matmat w la dt none X ⟨A, cfg, k⟩).2.A ∧
    CacheOk la cfg dt (w.factors s₀).1 (w.factors s₀).2 (KInvState.matmat w la dt none X ⟨A, cfg, k⟩).2.cache := by
  have hens : ∃ A', ensureKfac w none A = (.ok (), A') ∧ Settled w s₀ A' := by
    rcases hA with rfl | hA
    · exact ⟨_, ensureKfac_fresh w A hf, Settled.computed w A hf⟩
    · exact ⟨A, hA.ensure hg none, hA⟩
  obtain ⟨A', he, hS⟩ := hens
  obtain ⟨h1, h2, h3, -⟩ := invLoop_transparent la cfg cfg.cache dt A'.cfg.sep A'.inCov A'.gradCov w.mapping X k []
    (by rw [hS.inCov, hS.gradCov]; exact hk) (CacheOk.nil _ _ _ _ _)
  simp only [KInvState.matmat, he]
  rw [hS.inCov, hS.gradCov] at h1 h2 h3 ⊢
  rcases hr : invLoop la cfg dt A'.cfg.sep (w.factors s₀).1 (w.factors s₀).2 w.mapping X k with ⟨o, Y, k₁⟩
  rcases hr' : invLoop la cfg dt A'.cfg.sep (w.factors s₀).1 (w.factors s₀).2 w.mapping X [] with ⟨o', Y', k₁'⟩
  rw [hr, hr'] at h1 h2
  rw [hr] at h3
  simp only at h1 h2 h3
  subst h1 h2
  cases o with
  | error e => exact ⟨rfl, hS, h3⟩
  | ok u => exact ⟨rfl, hS, h3⟩

theorem InvSys.Consistent.follows {la : LinAlg} {dt : FloatType} {init : List (KWorld Θ B G × KState Θ)}
    (hinit : ∀ p ∈ init, p.2.IsFresh ∧ p.1.Good p.2.cfg) {s : InvSys Θ B G} (h : s.Consistent la dt init) (j : Nat)
    (X : List (Tensor ℝ)) : (s.product la dt j X none).1 = s.newProduct la dt j X none := by
  unfold InvSys.product InvSys.newProduct
  cases hj : s.invs[j]? with
  | none => rfl
  | some r =>
    simp only [InvSys.matmat]
    cases hi : s.kfacs[r.kfac]? with
    | none => rfl
    | some p =>
      obtain ⟨w, o⟩ := p
      obtain ⟨s₀, h0, hs⟩ := h.settled _ _ _ hi
      obtain ⟨hf, hg⟩ := hinit _ (List.mem_of_getElem? h0)
      exact congrArg some (matmat_consistent w la dt s₀ _ hf hg hs r.cfg _ (h.cached j r w s₀ hj h0) X).1

theorem value_update (heap : KHeap) (o : KObj Θ) (A : KState Θ) :
    KObj.value (Function.update heap o.ref (A.inCov, A.gradCov)) { o with attrs := A } = A := by
  simp [KObj.value]

theorem value_update_ne (heap : KHeap) (o : KObj Θ) (n : Nat) (d : Dict (Factor ℝ) × Dict (Factor ℝ)) (h : n ≠ o.ref) :
    KObj.value (Function.update heap n d) o = o.value heap := by
  simp [KObj.value, Function.update_of_ne (Ne.symm h)]

/-- Replacing the state of one KFAC operator by another settled one. -/
theorem InvSys.Consistent.setKfac {la : LinAlg} {dt : FloatType} {init : List (KWorld Θ B G × KState Θ)}
    {s : InvSys Θ B G} (h : s.Consistent la dt init) {i : Nat} {w : KWorld Θ B G} {o : KObj Θ}
    (hi : s.kfacs[i]? = some (w, o)) (A s₀ : KState Θ) (h0 : init[i]? = some (w, s₀)) (hA : A = s₀ ∨ Settled w s₀ A) :
    InvSys.Consistent la dt init { s with heap := Function.update s.heap o.ref (A.inCov, A.gradCov),
                                          kfacs := s.kfacs.set i (w, { o with attrs := A }) } := by
  have hlt : i < s.kfacs.length := (List.getElem?_eq_some_iff.mp hi).1
  have hget : ∀ i' w' o', (s.kfacs.set i (w, { o with attrs := A }))[i']? = some (w', o') →
      ∃ o'', s.kfacs[i']? = some (w', o'') ∧ o''.ref = o'.ref ∧ (i' = i → w' = w ∧ o' = { o with attrs := A }) ∧
        (i' ≠ i → o'' = o') := by
    intro i' w' o' h'
    by_cases hii : i' = i
    · subst hii
      rw [List.getElem?_set_self hlt] at h'
      cases h'
      exact ⟨o, hi, rfl, fun _ => ⟨rfl, rfl⟩, fun h => absurd rfl h⟩
    · rw [List.getElem?_set_ne (Ne.symm hii)] at h'
      exact ⟨o', h', rfl, fun h => absurd h hii, fun _ => rfl⟩
  refine ⟨?_, ?_, h.cacheRefs, h.cached⟩
  · intro i1 i2 w1 o1 w2 o2 h1 h2 hr
    obtain ⟨o1', e1, r1, -⟩ := hget _ _ _ h1
    obtain ⟨o2', e2, r2, -⟩ := hget _ _ _ h2
    exact h.refs _ _ _ _ _ _ e1 e2 (r1.trans (hr.trans r2.symm))
  · intro i' w' o' h'
    obtain ⟨o'', e, er, es, ene⟩ := hget _ _ _ h'
    by_cases hii : i' = i
    · obtain ⟨rfl, rfl⟩ := es hii
      subst hii
      refine ⟨s₀, h0, ?_⟩
      simp only [value_update]
      exact hA
    · obtain ⟨s₁, h1, h2⟩ := h.settled _ _ _ e
      refine ⟨s₁, h1, ?_⟩
      obtain rfl := ene hii
      have hne : o.ref ≠ o''.ref := fun hr => hii (h.refs _ _ _ _ _ _ e hi hr.symm)
      simp only [value_update_ne s.heap o'' o.ref _ hne]
      exact h2

/-- Uninterrupted calls without loading of state dictionaries. -/
def InvCall.Plain : InvCall Θ → Prop
  | .kfac _ _ f => f = none
  | .product _ _ f => f = none
  | _ => False

theorem InvSys.Consistent.step {la : LinAlg} {dt : FloatType} {init : List (KWorld Θ B G × KState Θ)}
    (hinit : ∀ p ∈ init, p.2.IsFresh ∧ p.1.Good p.2.cfg) {s : InvSys Θ B G} (h : s.Consistent la dt init) (c : InvCall Θ)
    (hc : c.Plain) : (s.step la dt c).Consistent la dt init := by
  cases c with
  | loadKfac i sd => exact absurd hc (by simp [InvCall.Plain])
  | loadInv j sd => exact absurd hc (by simp [InvCall.Plain])
  | kfac i c f =>
    obtain rfl : f = none := hc
    simp only [InvSys.step]
    cases hi : s.kfacs[i]? with
    | none => exact h
    | some p =>
      obtain ⟨w, o⟩ := p
      obtain ⟨s₀, h0, hs⟩ := h.settled _ _ _ hi
      obtain ⟨hf, hg⟩ := hinit _ (List.mem_of_getElem? h0)
      exact h.setKfac hi _ s₀ h0 (kStep_settled hf hg hs c).2
  | product j X f =>
    obtain rfl : f = none := hc
    simp only [InvSys.step, InvSys.product]
    cases hj : s.invs[j]? with
    | none => exact h
    | some r =>
      simp only [InvSys.matmat]
      cases hi : s.kfacs[r.kfac]? with
      | none => exact h
      | some p =>
        obtain ⟨w, o⟩ := p
        obtain ⟨s₀, h0, hs⟩ := h.settled _ _ _ hi
        obtain ⟨hf, hg⟩ := hinit _ (List.mem_of_getElem? h0)
        obtain ⟨-, h2, h3⟩ := matmat_consistent w la dt s₀ _ hf hg hs r.cfg _ (h.cached j r w s₀ hj h0) X
        have key := h.setKfac hi _ s₀ h0 (Or.inr h2)
        refine ⟨key.refs, key.settled, h.cacheRefs, fun j' r' w' s' hj' h0' => ?_⟩
        simp only at hj'
        by_cases hr : r'.ref = r.ref
        · have := h.cacheRefs _ _ _ _ hj' hj hr
          subst this
          rw [hj] at hj'
          cases hj'
          rw [h0] at h0'
          cases h0'
          simp only [Function.update_self]
          exact h3
        · simp only [Function.update_of_ne hr]
          exact h.cached j' r' w' s' hj' h0'

/-- C84 with any settings: if all KFAC operators and inverses are new, every inverse follows its KFAC operator after every
sequence of uninterrupted calls on the KFAC operators (products, traces, determinants, norms, uses of the model) and
products with the inverses, in any order. (Missing: loading of state dictionaries, see `inverse_stale`, and calls after
interruptions.) -/
theorem inverse_follows_products_partial (la : LinAlg) (dt : FloatType) (init : List (KWorld Θ B G × KState Θ))
    (hinit : ∀ p ∈ init, p.2.IsFresh ∧ p.1.Good p.2.cfg) (s : InvSys Θ B G)
    (hkfacs : s.kfacs.map (fun p => (p.1, p.2.value s.heap)) = init) (hrefs : (s.kfacs.map fun p => p.2.ref).Nodup)
    (hcaches : (s.invs.map InvRec.ref).Nodup) (hnew : ∀ r ∈ s.invs, s.caches r.ref = []) (cs : List (InvCall Θ))
    (hcs : ∀ c ∈ cs, c.Plain) (j : Nat) (X : List (Tensor ℝ)) :
    ((s.run la dt cs).product la dt j X none).1 = (s.run la dt cs).newProduct la dt j X none := by
  have h0 : s.Consistent la dt init := by
    refine ⟨?_, ?_, ?_, ?_⟩
    · intro i i' w o w' o' h h' hr
      have hlt : i < (s.kfacs.map fun p => p.2.ref).length := by
        rw [List.length_map]; exact (List.getElem?_eq_some_iff.mp h).1
      refine (List.getElem?_inj hlt hrefs).mp ?_
      rw [List.getElem?_map, List.getElem?_map, h, h']
      simp [hr]
    · intro i w o h
      refine ⟨o.value s.heap, ?_, Or.inl rfl⟩
      rw [← hkfacs, List.getElem?_map, h]
      rfl
    · intro i i' r r' h h' hr
      have hlt : i < (s.invs.map InvRec.ref).length := by
        rw [List.length_map]; exact (List.getElem?_eq_some_iff.mp h).1
      refine (List.getElem?_inj hlt hcaches).mp ?_
      rw [List.getElem?_map, List.getElem?_map, h, h']
      simp [hr]
    · intro j r w s₀ h _
      rw [hnew r (List.mem_of_getElem? h)]
      exact CacheOk.nil _ _ _ _ _
  have : (s.run la dt cs).Consistent la dt init := by
    unfold InvSys.run
    clear hkfacs hrefs hcaches hnew
    induction cs generalizing s with
    | nil => exact h0
    | cons c cs ih =>
      rw [List.foldl_cons]
      exact ih _ (fun c hc => hcs c (by simp [hc])) (h0.step hinit c (hcs c (by simp)))
  exact this.follows hinit j X

/-! ## Loading a state dictionary -/

/-- Cached inverses are used whatever the factors are. -/
theorem invLoop_all_cached (la : LinAlg) (cfg : InvCfg) (dt : FloatType) (sep : Bool)
    (inCov gradCov inCov' gradCov' : Dict (Factor ℝ)) (mapping : Dict (Dict Nat)) (X : List (Tensor ℝ)) (k : Dict KInv)
    (h : ∀ e ∈ mapping, k.get e.1 ≠ none) :
    invLoop la cfg dt sep inCov gradCov mapping X k = invLoop la cfg dt sep inCov' gradCov' mapping X k := by
  induction mapping generalizing X with
  | nil => rfl
  | cons e rest ih =>
    obtain ⟨name, pos⟩ := e
    obtain ⟨inv, hi⟩ := Option.ne_none_iff_exists'.mp (h (name, pos) (by simp))
    have hg : ∀ a b : Dict (Factor ℝ), computeOrGet la cfg dt a b k name = (.ok inv, k) := fun a b => by
      simp only [computeOrGet, hi]
    simp only [invLoop, hg]
    cases invLayer cfg sep inv X pos with
    | error e => rfl
    | ok ws => exact ih _ fun e he => h e (by simp [he])

/-- A successful product with `cache=True` caches the inverses of all layers. -/
theorem invLoop_caches (la : LinAlg) (cfg : InvCfg) (hc : cfg.cache = true) (dt : FloatType) (sep : Bool)
    (inCov gradCov : Dict (Factor ℝ)) (mapping : Dict (Dict Nat)) (X : List (Tensor ℝ)) (k : Dict KInv) :
    (∀ name, k.get name ≠ none → (invLoop la cfg dt sep inCov gradCov mapping X k).2.2.get name ≠ none) ∧
    ((invLoop la cfg dt sep inCov gradCov mapping X k).1 = .ok () →
      ∀ e ∈ mapping, (invLoop la cfg dt sep inCov gradCov mapping X k).2.2.get e.1 ≠ none) := by
  induction mapping generalizing X k with
  | nil => exact ⟨fun _ h => h, fun _ e he => by simp at he⟩
  | cons e rest ih =>
    obtain ⟨name, pos⟩ := e
    have hk : (∀ n, k.get n ≠ none → (computeOrGet la cfg dt inCov gradCov k name).2.get n ≠ none) ∧
        ∀ inv, (computeOrGet la cfg dt inCov gradCov k name).1 = .ok inv →
          (computeOrGet la cfg dt inCov gradCov k name).2.get name ≠ none := by
      unfold computeOrGet
      cases hg : k.get name with
      | some inv => exact ⟨fun _ h => h, fun _ _ => by simp [hg]⟩
      | none =>
        simp only [hc, if_true]
        cases computeInverseFactors la cfg dt (inCov.get name) (gradCov.get name) with
        | error e => exact ⟨fun _ h => h, fun _ h => by cases h⟩
        | ok inv =>
          refine ⟨fun n h => ?_, fun _ _ => ?_⟩
          · simp only [Dict.get_set]
            split
            · simp
            · exact h
          · simp [Dict.get_set]
    rw [invLoop]
    rcases hr : computeOrGet la cfg dt inCov gradCov k name with ⟨_ | inv, k'⟩
    · rw [hr] at hk
      exact ⟨hk.1, fun h => by cases h⟩
    · rw [hr] at hk
      simp only
      cases invLayer cfg sep inv X pos with
      | error e => exact ⟨hk.1, fun h => by cases h⟩
      | ok ws =>
        obtain ⟨i1, i2⟩ := ih (setAll X ws) k'
        refine ⟨fun n h => i1 n (hk.1 n h), fun h e he => ?_⟩
        rcases List.mem_cons.mp he with rfl | he
        · exact i1 _ (hk.2 inv rfl)
        · exact i2 h e he

theorem matmat_caches (w : KWorld Θ B G) (la : LinAlg) (dt : FloatType) (fault : Fault) (X Y : List (Tensor ℝ))
    (st : KInvState Θ) (hc : st.cfg.cache = true) (h : (KInvState.matmat w la dt fault X st).1.1 = .ok Y) :
    ∀ e ∈ w.mapping, (KInvState.matmat w la dt fault X st).2.cache.get e.1 ≠ none := by
  revert h
  unfold KInvState.matmat
  rcases ensureKfac w fault st.A with ⟨_ | u, A⟩
  · intro h
    cases h
  · simp only
    have := (invLoop_caches la st.cfg hc dt A.cfg.sep A.inCov A.gradCov w.mapping X st.cache).2
    rcases hl : invLoop la st.cfg dt A.cfg.sep A.inCov A.gradCov w.mapping X st.cache with ⟨_ | u, X', k⟩
    · intro h
      cases h
    · rw [hl] at this
      exact fun _ => this rfl

theorem load_ok_value (w : KWorld Θ B G) (heap : KHeap) (sd : StateDict Θ) (o : KObj Θ)
    (h : (o.load w heap sd).1 = .ok ()) :
    ((o.load w heap sd).2.value heap).cfg.sep = sd.sep ∧ ((o.load w heap sd).2.value heap).inCov = (heap sd.ref).1 ∧
      ((o.load w heap sd).2.value heap).gradCov = (heap sd.ref).2 := by
  unfold KObj.load at h ⊢
  simp only at h ⊢
  split_ifs at h ⊢
  exact ⟨rfl, rfl, rfl⟩

/-- C84 is violated: an inverse that has cached the inverses of all layers does not follow when a state dictionary with
other factors is loaded into its KFAC operator. Its products stay as they were, whatever the new factors are. -/
theorem inverse_stale (la : LinAlg) (dt : FloatType) (s : InvSys Θ B G) (j : Nat) (r : InvRec) (hj : s.invs[j]? = some r)
    (w : KWorld Θ B G) (o : KObj Θ) (hi : s.kfacs[r.kfac]? = some (w, o)) (sd : StateDict Θ)
    (hload : (o.load w s.heap sd).1 = .ok ()) (hsep : sd.sep = o.attrs.cfg.sep)
    (hold : ((s.heap o.ref).1.isEmpty && (s.heap o.ref).2.isEmpty) = false)
    (hnew : ((s.heap sd.ref).1.isEmpty && (s.heap sd.ref).2.isEmpty) = false)
    (hcached : ∀ e ∈ w.mapping, (s.caches r.ref).get e.1 ≠ none) (X : List (Tensor ℝ)) (fault : Fault) :
    ((s.step la dt (.loadKfac r.kfac sd)).product la dt j X fault).1 = (s.product la dt j X fault).1 := by
  have hlt : r.kfac < s.kfacs.length := (List.getElem?_eq_some_iff.mp hi).1
  obtain ⟨h1, h2, h3⟩ := load_ok_value w s.heap sd o hload
  have e1 : ensureKfac w fault ((o.load w s.heap sd).2.value s.heap) = (.ok (), (o.load w s.heap sd).2.value s.heap) := by
    unfold ensureKfac
    rw [h2, h3, hnew]
    rfl
  have e2 : ensureKfac w fault (o.value s.heap) = (.ok (), o.value s.heap) := by
    unfold ensureKfac
    have : ((o.value s.heap).inCov.isEmpty && (o.value s.heap).gradCov.isEmpty) = false := hold
    rw [this]
    rfl
  have e3 : (o.value s.heap).cfg.sep = sd.sep := hsep.symm
  simp only [InvSys.step, hi, InvSys.product, hj, InvSys.matmat, List.getElem?_set_self hlt, KInvState.matmat, e1, e2, h1, e3]
  rw [invLoop_all_cached la r.cfg dt sd.sep _ _ (o.value s.heap).inCov (o.value s.heap).gradCov w.mapping X _ hcached]
  rcases invLoop la r.cfg dt sd.sep (o.value s.heap).inCov (o.value s.heap).gradCov w.mapping X (s.caches r.ref) with
    ⟨_ | u, X', k⟩ <;> rfl

/-- C84: after the state dictionary of inverse `i` has been loaded into inverse `j` of the same KFAC operator, both return
the same: the settings and the cache are those of inverse `i`. -/
theorem loaded_inverse_agrees (la : LinAlg) (dt : FloatType) (s : InvSys Θ B G) (i j : Nat) (r r' : InvRec)
    (hj : s.invs[j]? = some r) (hi : s.invs[i]? = some r') (hk : r'.kfac = r.kfac) (w : KWorld Θ B G) (o : KObj Θ)
    (ho : s.kfacs[r.kfac]? = some (w, o))
    (hload : (KInvObj.load w s.heap (KInvObj.stateDict ⟨o, r'.cfg, r'.ref⟩) ⟨o, r.cfg, r.ref⟩).1 = .ok ())
    (X : List (Tensor ℝ)) (fault : Fault) :
    let s' := s.step la dt (.loadInv j (KInvObj.stateDict ⟨o, r'.cfg, r'.ref⟩))
    (s'.product la dt j X fault).1 = (s'.product la dt i X fault).1 ∧
      (s'.product la dt j X fault).2 = (s'.product la dt i X fault).2 := by
  intro s'
  have hlt : j < s.invs.length := (List.getElem?_eq_some_iff.mp hj).1
  have hrec : ∀ A, (KInvObj.load w s.heap (KInvObj.stateDict ⟨o, r'.cfg, r'.ref⟩) ⟨o, r.cfg, r.ref⟩).2.A = A →
      (KInvObj.load w s.heap (KInvObj.stateDict ⟨o, r'.cfg, r'.ref⟩) ⟨o, r.cfg, r.ref⟩).2 = ⟨A, r'.cfg, r'.ref⟩ := by
    intro A hA
    subst hA
    unfold KInvObj.load at hload ⊢
    rcases hl : o.load w s.heap (KInvObj.stateDict ⟨o, r'.cfg, r'.ref⟩).A with ⟨_ | u, A⟩
    · rw [hl] at hload
      simp at hload
    · rfl
  have hs' : s' = { s with
      kfacs := s.kfacs.set r.kfac (w, (KInvObj.load w s.heap (KInvObj.stateDict ⟨o, r'.cfg, r'.ref⟩) ⟨o, r.cfg, r.ref⟩).2.A)
      invs := s.invs.set j r' } := by
    simp only [s', InvSys.step, hj, ho]
    rw [hrec _ rfl, ← hk]
  have e1 : s'.invs[j]? = some r' := by rw [hs']; exact List.getElem?_set_self hlt
  have e2 : s'.invs[i]? = some r' := by
    by_cases hij : i = j
    · rw [hij]; exact e1
    · rw [hs']
      exact (List.getElem?_set_ne fun h => hij h.symm).trans hi
  simp only [InvSys.product, e1, e2, and_self]

/-! ## Example and counterexample -/

/-- One weight, factors `x` and `y`, damping 1, empty cache: a product divides by `(x + 1) (y + 1)`. -/
theorem unit_product (la : LinAlg) (hla : la.Correct) (dt : FloatType) (c : Bool) (A A' : KState Unit)
    (hA : ensureKfac unitWorld none A = (.ok (), A')) (hsep : A'.cfg.sep = true) (x y : ℝ) (hx : 0 ≤ x) (hy : 0 ≤ y)
    (hin : A'.inCov = [("lin", ⟨1, fun _ _ => x⟩)]) (hgr : A'.gradCov = [("lin", ⟨1, fun _ _ => y⟩)]) (z : ℝ) :
    (KInvState.matmat unitWorld la dt none [⟨[1, 1, 1], [z]⟩] ⟨A, ⟨.value 1, false, 0, false, c, true⟩, []⟩).1.1 =
      .ok [⟨[1, 1, 1], [z / ((x + 1) * (y + 1))]⟩] := by
  let l : Layer ℝ := ⟨"lin", .weight 0, ⟨1, fun _ _ => x⟩, ⟨1, fun _ _ => y⟩⟩
  have hK : KfacLayers A'.cfg.sep [[1, 1]] unitWorld.mapping A'.inCov A'.gradCov [l] := by
    rw [hin, hgr]
    refine ⟨rfl, by simp [l, LayerPos.positions], ?_, ?_, ?_⟩
    · intro l' hl _
      rw [List.mem_singleton.mp hl]
      rfl
    · intro l' hl
      rw [List.mem_singleton.mp hl]
      rfl
    · intro l' hl
      rw [List.mem_singleton.mp hl]
      exact ⟨rfl, rfl⟩
  have hD : IsKron (kfacBlocks A'.cfg.sep [[1, 1]] ([l].map fun l => l.damped 1 1)) fun _ _ => (y + 1) * (x + 1) := by
    rw [hsep]
    have : kfacBlocks true [[1, 1]] ([l].map fun l => l.damped 1 1) = [(l.damped 1 1).wBlock [[1, 1]] 0] := rfl
    rw [this]
    rintro ⟨⟨i, hi⟩, a, b⟩ ⟨⟨j, hj⟩, c, d⟩
    obtain rfl : i = 0 := by simpa using hi
    obtain rfl : j = 0 := by simpa using hj
    simp only [KIdx.entry, if_true, Fin.getElem_fin, List.getElem_cons_zero]
    have ha : (a : Nat) = 0 := Nat.lt_one_iff.mp a.2
    have hb : (b : Nat) = 0 := Nat.lt_one_iff.mp b.2
    have hc : (c : Nat) = 0 := Nat.lt_one_iff.mp c.2
    have hd : (d : Nat) = 0 := Nat.lt_one_iff.mp d.2
    rw [ha, hb, hc, hd]
    show (y + 1) * (x + 1) = (y + if (0 : Nat) = 0 then 1 else 0) * (x + if (0 : Nat) = 0 then 1 else 0)
    simp
  have hpd : ∀ u : ℝ, 0 ≤ u → (Factor.addDiag ⟨1, fun _ _ => u⟩ 1).PosDef := by
    intro u hu
    refine Factor.PosSemidef.addDiag ⟨fun _ _ _ _ => rfl, fun v => ?_⟩ one_pos
    simp
    nlinarith [mul_nonneg hu (sq_nonneg (v 0))]
  obtain ⟨E, hE, hI⟩ := kfacInverse_damped unitWorld la hla dt [[1, 1]]
    ⟨A, ⟨.value 1, false, 0, false, c, true⟩, []⟩ A' hA [l] hK (by
      intro l' hl h
      rw [List.mem_singleton.mp hl] at h
      exact absurd h (by simp [l, LayerPos.hasWeight])) (CacheOk.nil _ _ _ _ _) rfl (fun _ => 1) (fun _ => 1)
    (fun l _ => (plainDamping _ rfl _ _).1 1 rfl) (by
      intro l' hl _
      rw [List.mem_singleton.mp hl]
      exact hpd x hx) (by
      intro l' hl
      rw [List.mem_singleton.mp hl]
      exact hpd y hy) _ hD
  have hE0 : E 0 0 = 1 / ((x + 1) * (y + 1)) := by
    have := (hI 0 (by simp) 0 (by simp)).1
    simp at this
    have hp : (x + 1) * (y + 1) ≠ 0 := by positivity
    field_simp
    linarith
  obtain ⟨Ys, hY, hYs, hl, hYe⟩ := hE 1 [⟨[1, 1, 1], [z]⟩] (by
    refine ⟨rfl, fun t ht => ?_⟩
    rw [List.mem_singleton.mp ht]
    rfl)
  have hY0 := hYe 0 (by show 0 < 1; norm_num) 0 (by norm_num)
  have hYs' : Ys = [⟨[1, 1, 1], [z / ((x + 1) * (y + 1))]⟩] := by
    have h1 : Ys.map Tensor.shape = [[1, 1, 1]] := hYs.1
    match Ys, h1, hYs, hY0 with
    | [], h1, _, _ => exact absurd (congrArg List.length h1) (by simp)
    | _ :: _ :: _, h1, _, _ => exact absurd (congrArg List.length h1) (by simp)
    | [t], h1, hYs, hY0 =>
      have hs : t.shape = [1, 1, 1] := by simpa using h1
      have hwf := hYs.2 t (by simp)
      obtain ⟨sh, data⟩ := t
      simp only at hs
      subst hs
      have hlen : data.length = 1 := by simpa [Tensor.WF] using hwf
      obtain ⟨v, rfl⟩ := List.length_eq_one_iff.mp hlen
      have : (KInvState.op unitWorld la dt [[1, 1]] ⟨A, ⟨.value 1, false, 0, false, c, true⟩, []⟩).ncols = 1 := rfl
      rw [this] at hY0
      simp [flatData, hE0] at hY0
      rw [hY0]
      congr 3
      field_simp
  subst hYs'
  exact hY

/-- A KFAC operator and an inverse, both new; reference 1 holds the factors 2 and 3 of a stored state. -/
noncomputable def followSys (cache : Bool) : InvSys Unit (List KDatum) Unit where
  heap := fun n => if n = 1 then ([("lin", ⟨1, fun _ _ => 2⟩)], [("lin", ⟨1, fun _ _ => 3⟩)]) else ([], [])
  caches := fun _ => []
  kfacs := [(unitWorld, unitObj)]
  invs := [⟨0, ⟨.value 1, false, 0, false, cache, true⟩, 0⟩]

/-- Two inverses of one KFAC operator with factors 2 and 3: with damping 1 and an empty cache, and with damping 5 and a cached
inverse. -/
noncomputable def twoInverses (inv : KInv) : InvSys Unit (List KDatum) Unit where
  heap := fun _ => ([("lin", ⟨1, fun _ _ => 2⟩)], [("lin", ⟨1, fun _ _ => 3⟩)])
  caches := fun n => if n = 1 then [("lin", inv)] else []
  kfacs := [(unitWorld, unitObj)]
  invs := [⟨0, ⟨.value 1, false, 0, false, true, true⟩, 0⟩, ⟨0, ⟨.value 5, false, 0, false, true, true⟩, 1⟩]

example (la : LinAlg) (dt : FloatType) (inv : KInv) (X : List (Tensor ℝ)) (fault : Fault) :
    let sd := KInvObj.stateDict ⟨unitObj, ⟨.value 5, false, 0, false, true, true⟩, 1⟩
    let s' := (twoInverses inv).step la dt (.loadInv 0 sd)
    (s'.product la dt 0 X fault).1 = (s'.product la dt 1 X fault).1 :=
  (loaded_inverse_agrees la dt (twoInverses inv) 1 0 _ _ rfl rfl rfl unitWorld unitObj rfl (by
    have hm : keysMismatch unitWorld ((twoInverses inv).heap 0) = false := rfl
    have hl : (KObj.load unitWorld (twoInverses inv).heap unitObj.stateDict unitObj).1 = .ok () := by
      simp only [KObj.load]
      rw [if_neg (by simp [KObj.stateDict]), if_neg (by simp [KObj.stateDict]), if_neg (by simp [unitObj, hm])]
    show (KInvObj.load unitWorld (twoInverses inv).heap _ _).1 = _
    unfold KInvObj.load
    rcases h : KObj.load unitWorld (twoInverses inv).heap unitObj.stateDict unitObj with ⟨_ | u, A⟩
    · rw [h] at hl
      simp at hl
    · simp only [KInvObj.stateDict, h]) X fault).1

/-- The stored state. -/
def storedState : StateDict Unit := KObj.stateDict ⟨unitState, 1⟩

theorem matmat_kfac (w : KWorld Θ B G) (la : LinAlg) (dt : FloatType) (fault : Fault) (X : List (Tensor ℝ))
    (st : KInvState Θ) : (KInvState.matmat w la dt fault X st).2.A = (ensureKfac w fault st.A).2 := by
  unfold KInvState.matmat
  rcases ensureKfac w fault st.A with ⟨_ | u, A⟩
  · rfl
  · simp only
    rcases invLoop la st.cfg dt A.cfg.sep A.inCov A.gradCov w.mapping X st.cache with ⟨_ | u, X', k⟩ <;> rfl

/-- C84 is violated, concretely: the first product of the inverse with 6 is `6 / ((1 + 1) (2 + 1)) = 1`. After the KFAC
operator has loaded the stored state, the product with 6 is 1 again with `cache=True` (the default), while a new inverse
returns `6 / ((2 + 1) (3 + 1)) = 1 / 2`. With `cache=False` the inverse returns `1 / 2`, too. -/
theorem inverse_stale_witness (la : LinAlg) (hla : la.Correct) (dt : FloatType) (cache : Bool) :
    let X : List (Tensor ℝ) := [⟨[1, 1, 1], [6]⟩]
    let s := (followSys cache).run la dt [.product 0 X none, .loadKfac 0 storedState]
    ((followSys cache).product la dt 0 X none).1 = some (.ok [⟨[1, 1, 1], [1]⟩]) ∧
    (s.product la dt 0 X none).1 = some (.ok [⟨[1, 1, 1], [if cache then 1 else 1 / 2]⟩]) ∧
    s.newProduct la dt 0 X none = some (.ok [⟨[1, 1, 1], [1 / 2]⟩]) := by
  intro X s
  have hv : unitObj.value (followSys cache).heap = unitState := rfl
  obtain ⟨A, hA, hS⟩ : ∃ A, ensureKfac unitWorld none unitState = (.ok (), A) ∧ Settled unitWorld unitState A :=
    ⟨_, ensureKfac_fresh unitWorld unitState unitState_fresh, Settled.computed unitWorld unitState unitState_fresh⟩
  have hin : A.inCov = [("lin", ⟨1, fun _ _ => 1⟩)] := by rw [hS.inCov, unit_factors]
  have hgr : A.gradCov = [("lin", ⟨1, fun _ _ => 2⟩)] := by rw [hS.gradCov, unit_factors]
  have hcfg : A.cfg = stateCfg := hS.cfg
  have hfirst : ((followSys cache).product la dt 0 X none).1 = some (.ok [⟨[1, 1, 1], [1]⟩]) := by
    have := unit_product la hla dt cache unitState A hA (by rw [hcfg]; rfl) 1 2 (by norm_num) (by norm_num) hin hgr 6
    norm_num at this
    exact congrArg some this
  -- the state after the first product
  let s₁ : InvSys Unit (List KDatum) Unit := (followSys cache).step la dt (.product 0 X none)
  have hk₁ : s₁.kfacs[0]? = some (unitWorld, ⟨A, 0⟩) := by
    have h : (KInvState.matmat unitWorld la dt none X
        ⟨unitState, ⟨.value 1, false, 0, false, cache, true⟩, []⟩).2.A = A := by rw [matmat_kfac, hA]
    rw [← h]
    rfl
  have hh₁ : s₁.heap = Function.update (followSys cache).heap 0 (A.inCov, A.gradCov) := by
    have h : (KInvState.matmat unitWorld la dt none X
        ⟨unitState, ⟨.value 1, false, 0, false, cache, true⟩, []⟩).2.A = A := by rw [matmat_kfac, hA]
    rw [← h]
    rfl
  have hh0 : s₁.heap 0 = ([("lin", ⟨1, fun _ _ => 1⟩)], [("lin", ⟨1, fun _ _ => 2⟩)]) := by
    rw [hh₁, Function.update_self, hin, hgr]
  have hh1 : s₁.heap 1 = ([("lin", ⟨1, fun _ _ => 2⟩)], [("lin", ⟨1, fun _ _ => 3⟩)]) := by
    rw [hh₁, Function.update_of_ne (by norm_num)]
    rfl
  have hload : (KObj.load unitWorld s₁.heap storedState ⟨A, 0⟩).1 = .ok () := by
    have hm : keysMismatch unitWorld (s₁.heap 0) = false := by
      rw [hh0]
      rfl
    simp only [KObj.load, hcfg]
    rw [if_neg (by simp [storedState, KObj.stateDict, unitState, KState.fresh]),
      if_neg (by simp [storedState, KObj.stateDict, unitState, KState.fresh]), hm]
    rfl
  obtain ⟨l1, l2, l3⟩ := load_ok_value unitWorld s₁.heap storedState ⟨A, 0⟩ hload
  have hs : s = s₁.step la dt (.loadKfac 0 storedState) := rfl
  have hsk : s.kfacs[0]? = some (unitWorld, (KObj.load unitWorld s₁.heap storedState ⟨A, 0⟩).2) := by
    rw [hs]
    simp only [InvSys.step, hk₁]
    exact List.getElem?_set_self (List.getElem?_eq_some_iff.mp hk₁).1
  have hsh : s.heap = s₁.heap := by
    rw [hs]
    simp only [InvSys.step, hk₁]
  have hsi : s.invs[0]? = some ⟨0, ⟨.value 1, false, 0, false, cache, true⟩, 0⟩ := by
    rw [hs]
    simp only [InvSys.step, hk₁]
    rfl
  have hnew : s.newProduct la dt 0 X none = some (.ok [⟨[1, 1, 1], [1 / 2]⟩]) := by
    have he : ensureKfac unitWorld none ((KObj.load unitWorld s₁.heap storedState ⟨A, 0⟩).2.value s₁.heap) =
        (.ok (), (KObj.load unitWorld s₁.heap storedState ⟨A, 0⟩).2.value s₁.heap) := by
      unfold ensureKfac
      rw [l2, show storedState.ref = 1 from rfl, hh1]
      rfl
    have := unit_product la hla dt cache _ _ he (l1.trans rfl) 2 3 (by norm_num) (by norm_num)
      (by rw [l2, show storedState.ref = 1 from rfl, hh1]) (by rw [l3, show storedState.ref = 1 from rfl, hh1]) 6
    norm_num at this
    simp only [InvSys.newProduct, hsi, InvSys.matmat, hsk, hsh]
    rw [this]
  refine ⟨hfirst, ?_, hnew⟩
  cases cache with
  | false =>
    have := inverse_follows_uncached_partial la dt (followSys false)
      ⟨fun r hr => by rw [List.mem_singleton.mp hr], fun _ => rfl⟩ [.product 0 X none, .loadKfac 0 storedState]
      (by simp) 0 X none
    rw [this]
    exact hnew
  | true =>
    have hi₁ : s₁.invs[0]? = some ⟨0, ⟨.value 1, false, 0, false, true, true⟩, 0⟩ := rfl
    have hc : ∀ e ∈ unitWorld.mapping, (s₁.caches 0).get e.1 ≠ none := by
      have := matmat_caches unitWorld la dt none X _ ⟨unitState, ⟨.value 1, false, 0, false, true, true⟩, []⟩ rfl
        (Option.some.inj hfirst)
      have h0 : s₁.caches 0 = (KInvState.matmat unitWorld la dt none X
        ⟨unitState, ⟨.value 1, false, 0, false, true, true⟩, []⟩).2.cache := rfl
      rw [h0]
      exact this
    rw [hs, inverse_stale la dt s₁ 0 _ hi₁ unitWorld ⟨A, 0⟩ hk₁ storedState hload (by rw [hcfg]; rfl)
      (by rw [hh0]; rfl) (by rw [show storedState.ref = 1 from rfl, hh1]; rfl) hc]
    -- the second product, without loading, returns what the first one returns
    have := inverse_follows_products_partial la dt [(unitWorld, unitState)]
      (by intro p hp; rw [List.mem_singleton.mp hp]; exact ⟨unitState_fresh, unitWorld_good⟩) (followSys true) rfl
      (by simp [followSys]) (by simp [followSys]) (fun _ _ => rfl) [.product 0 X none]
      (by intro c hc; rw [List.mem_singleton.mp hc]; rfl) 0 X
    refine (show (s₁.product la dt 0 X none).1 = _ from this).trans ?_
    have hv₁ : KObj.value s₁.heap ⟨A, 0⟩ = A := by
      rw [hh₁]
      simp [KObj.value]
    have := unit_product la hla dt true A A (hS.ensure unitWorld_good none) (by rw [hcfg]; rfl) 1 2 (by norm_num)
      (by norm_num) hin hgr 6
    norm_num at this
    simp only [InvSys.newProduct, InvSys.matmat, if_true]
    rw [show (InvSys.run la dt (followSys true) [.product 0 X none]) = s₁ from rfl, hi₁]
    simp only [hk₁, hv₁]
    rw [this]

/-- C84 in the example: after products, traces and a use of the model in any order, the inverse with a cache returns what a
new one returns. -/
example (la : LinAlg) (dt : FloatType) (X Y : List (Tensor ℝ)) :
    let s := (followSys true).run la dt [.product 0 X none, .kfac 0 .trace none, .kfac 0 (.userForward [unitDatum]) none,
      .product 0 Y none]
    (s.product la dt 0 X none).1 = s.newProduct la dt 0 X none :=
  inverse_follows_products_partial la dt [(unitWorld, unitState)]
    (by intro p hp; rw [List.mem_singleton.mp hp]; exact ⟨unitState_fresh, unitWorld_good⟩) (followSys true) rfl
    (by simp [followSys]) (by simp [followSys]) (fun _ _ => rfl) _
    (by intro c hc; simp only [List.mem_cons, List.not_mem_nil, or_false] at hc; rcases hc with rfl | rfl | rfl | rfl <;> rfl)
    0 X

end Curvlinops
