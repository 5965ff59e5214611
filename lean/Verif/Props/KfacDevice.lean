import Verif.Model.KfacDevice
import Verif.Props.KfacFactors

/-!
# C81: KFAC and its inverse work on the device they are on
-/

namespace Curvlinops

variable {D : Type} [DecidableEq D]

/-- The dictionaries of an operator after `_compute_kfac` on device `d`. -/
def fullCell (d : D) (layers : List (String × Bool)) : DevCell D :=
  ((layers.filter fun l => l.2).map fun l => (l.1, d), layers.map fun l => (l.1, d))

/-- Every factor in the dictionaries is on device `d`. -/
def AllOn (d : D) (c : DevCell D) : Prop := (∀ e ∈ c.1, e.2 = d) ∧ ∀ e ∈ c.2, e.2 = d

/-- The model is on the operator's device, and the factors are either not computed or all there. -/
def DevKfac.Settled (m : DevMem D) (o : DevKfac D) : Prop :=
  m.models o.model = o.device ∧ (m.cells o.ref = ([], []) ∨ m.cells o.ref = fullCell o.device o.layers)

omit [DecidableEq D] in
theorem get_map_const (d : D) (ns : List String) (k : String) :
    Dict.get (ns.map fun n => (n, d)) k = if k ∈ ns then some d else none := by
  induction ns with
  | nil => simp [Dict.get]
  | cons n ns ih =>
    simp only [Dict.get, List.map_cons, List.lookup_cons] at ih ⊢
    by_cases h : k = n
    · simp [h]
    · have : (k == n) = false := by simpa using h
      simp [this, ih, h]

omit [DecidableEq D] in
theorem fullCell_get_grad (d : D) (layers : List (String × Bool)) {l : String × Bool} (hl : l ∈ layers) :
    (fullCell d layers).2.get l.1 = some d := by
  have := get_map_const d (layers.map Prod.fst) l.1
  rw [List.map_map] at this
  rw [show (fullCell d layers).2 = layers.map ((fun n => (n, d)) ∘ Prod.fst) from rfl, this,
    if_pos (List.mem_map_of_mem hl)]

omit [DecidableEq D] in
theorem fullCell_get_input (d : D) (layers : List (String × Bool)) {l : String × Bool} (hl : l ∈ layers)
    (hw : l.2 = true) : (fullCell d layers).1.get l.1 = some d := by
  have := get_map_const d ((layers.filter fun l => l.2).map Prod.fst) l.1
  rw [List.map_map] at this
  rw [show (fullCell d layers).1 = (layers.filter fun l => l.2).map ((fun n => (n, d)) ∘ Prod.fst) from rfl, this,
    if_pos (List.mem_map_of_mem (List.mem_filter.mpr ⟨hl, hw⟩))]

omit [DecidableEq D] in
theorem fullCell_allOn (d : D) (layers : List (String × Bool)) : AllOn d (fullCell d layers) := by
  constructor <;> intro e he <;> simp only [fullCell, List.mem_map] at he <;> obtain ⟨_, _, rfl⟩ := he <;> rfl

omit [DecidableEq D] in
theorem DevKfac.Settled.allOn {m : DevMem D} {o : DevKfac D} (h : o.Settled m) : AllOn o.device (m.cells o.ref) := by
  rcases h.2 with h | h
  · rw [h]; constructor <;> intro e he <;> simp at he
  · rw [h]; exact fullCell_allOn _ _

omit [DecidableEq D] in
theorem fullCell_move (d d' : D) (layers : List (String × Bool)) :
    (((fullCell d layers).1.map fun e => (e.1, d')), (fullCell d layers).2.map fun e => (e.1, d')) =
      fullCell d' layers := by
  simp [fullCell, Function.comp_def]

theorem useFactor_ok {d : Dict D} {name : String} {x : D} : useFactor d name x = .ok () ↔ d.get name = some x := by
  unfold useFactor
  split
  · next h => simp [h]
  · next f h => rw [h]; split <;> simp_all

/-- The products of layers succeed if and only if the factors that they need exist and are on the device of the
matrix. -/
theorem productLoop_ok (c : DevCell D) (x : D) (layers : List (String × Bool)) :
    productLoop c x layers = .ok () ↔
      ∀ l ∈ layers, (l.2 = true → c.1.get l.1 = some x) ∧ c.2.get l.1 = some x := by
  induction layers with
  | nil => simp [productLoop]
  | cons l ls ih =>
    obtain ⟨name, w⟩ := l
    simp only [productLoop, List.mem_cons, forall_eq_or_imp]
    rw [← ih, ← useFactor_ok, ← useFactor_ok]
    cases w <;> cases h1 : useFactor c.1 name x <;> cases h2 : useFactor c.2 name x <;>
      simp [bind, Except.bind]

/-- The exact condition for products: with computed factors, a product with a matrix on device `x` succeeds if and only if
all factors of the operator's layers are on `x`, and then the result is on `x`. -/
theorem product_ok_iff (m : DevMem D) (o : DevKfac D) (x : D)
    (h : ¬((m.cells o.ref).1 = [] ∧ (m.cells o.ref).2 = [])) :
    (o.product x m).1 = .ok x ↔
      ∀ l ∈ o.layers, (l.2 = true → (m.cells o.ref).1.get l.1 = some x) ∧ (m.cells o.ref).2.get l.1 = some x := by
  have he : o.ensure m = (.ok (), m, o) := by
    unfold DevKfac.ensure
    rw [if_neg (by simpa [List.isEmpty_iff] using h)]
  unfold DevKfac.product
  rw [he, ← productLoop_ok]
  cases h' : productLoop (m.cells o.ref) x o.layers <;> simp [Except.map, h']

theorem DevKfac.generatorDevice_eq (o : DevKfac D) : o.generatorDevice = o.device := by
  unfold DevKfac.generatorDevice
  split
  · rfl
  · split <;> simp_all

/-- What `ensure` does to a settled operator. -/
theorem ensure_settled {m : DevMem D} {o : DevKfac D} (h : o.Settled m) :
    (o.ensure m).1 = .ok () ∧
    (o.ensure m).2.1 = { m with cells := Function.update m.cells o.ref (fullCell o.device o.layers) } ∧
    (o.ensure m).2.2.device = o.device ∧ (o.ensure m).2.2.ref = o.ref ∧ (o.ensure m).2.2.model = o.model ∧
    (o.ensure m).2.2.layers = o.layers ∧ (o.ensure m).2.2.isMC = o.isMC := by
  obtain ⟨hm, hc⟩ := h
  have hcomp : o.compute m = (.ok (), { m with cells := Function.update m.cells o.ref (fullCell o.device o.layers) },
      { o with trace := none, generator := some o.device }) := by
    unfold DevKfac.compute
    simp only [o.generatorDevice_eq]
    rw [if_neg (by simpa using hm), if_neg (by simp)]
    rfl
  by_cases he : ((m.cells o.ref).1.isEmpty && (m.cells o.ref).2.isEmpty) = true
  · have : o.ensure m = o.compute m := by unfold DevKfac.ensure; rw [if_pos he]
    rw [this, hcomp]
    simp
  · have : o.ensure m = (.ok (), m, o) := by unfold DevKfac.ensure; rw [if_neg he]
    rw [this]
    have hfull : m.cells o.ref = fullCell o.device o.layers := by
      rcases hc with hc | hc
      · exact absurd (by simp [hc]) he
      · exact hc
    refine ⟨rfl, ?_, rfl, rfl, rfl, rfl, rfl⟩
    rw [← hfull]
    simp

/-- Products of a settled operator on its device succeed, with the result on that device. -/
theorem product_settled {m : DevMem D} {o : DevKfac D} (h : o.Settled m) : (o.product o.device m).1 = .ok o.device := by
  obtain ⟨h1, h2, h3, h4, h5, h6, h7⟩ := ensure_settled h
  unfold DevKfac.product
  generalize o.ensure m = r at *
  obtain ⟨r, m', o'⟩ := r
  simp only at h1 h2 h3 h4 h5 h6 h7
  subst h1
  simp only [h4, h6]
  rw [(productLoop_ok _ _ _).mpr]
  · rfl
  · intro l hl
    rw [h2]
    simp only [Function.update_self]
    exact ⟨fun hw => fullCell_get_input _ _ hl hw, fullCell_get_grad _ _ hl⟩

theorem Dict.has_iff {β : Type} (d : Dict β) (k : String) : d.has k = true ↔ d.get k ≠ none := by
  unfold Dict.has Dict.get
  rw [ne_eq, List.lookup_eq_none_iff]
  simp only [List.any_eq_true, beq_iff_eq]
  constructor
  · rintro ⟨e, he, rfl⟩ h
    simpa using h e he
  · intro h
    by_contra hno
    refine h fun p hp => ?_
    simp only [bne_iff_ne, ne_eq]
    exact fun hpe => hno ⟨p, hp, hpe.symm⟩

/-- Cached inverses are on the devices of the factors. -/
def DevInv.Fits (c : DevCell D) (v : DevInv D) : Prop :=
  ∀ name, v.inputs.has name = true →
    (v.inputs.get name).join = c.1.get name ∧ (v.grads.get name).join = c.2.get name

omit [DecidableEq D] in
theorem DevInv.get_fits {c : DevCell D} {v : DevInv D} (hv : v.Fits c) (name : String) :
    ∃ v', v.get c name = (c.1.get name, c.2.get name, v') ∧ v'.Fits c ∧ v'.cache = v.cache ∧
      (v.cache = false → v' = v) := by
  unfold DevInv.get
  by_cases hh : v.inputs.has name = true
  · rw [if_pos hh, (hv name hh).1, (hv name hh).2]
    exact ⟨v, rfl, hv, rfl, fun _ => rfl⟩
  · rw [if_neg hh]
    by_cases hc : v.cache = true
    · simp only [if_pos hc]
      refine ⟨_, rfl, ?_, rfl, by simp [hc]⟩
      intro k hk
      simp only [Dict.get_set]
      by_cases hkn : k = name
      · simp [hkn]
      · rw [if_neg hkn, if_neg hkn]
        refine hv k ?_
        rw [Dict.has_iff] at hk ⊢
        simpa only [Dict.get_set, if_neg hkn] using hk
    · simp only [if_neg hc]
      exact ⟨v, rfl, hv, rfl, fun _ => rfl⟩

theorem inverseLoop_fits (c : DevCell D) (x : D) (layers : List (String × Bool)) (v : DevInv D) (hv : v.Fits c) :
    (inverseLoop c x layers v).2.Fits c ∧ (inverseLoop c x layers v).2.cache = v.cache ∧
      (v.cache = false → (inverseLoop c x layers v).2 = v) ∧
      ((∀ l ∈ layers, (l.2 = true → c.1.get l.1 = some x) ∧ c.2.get l.1 = some x) →
        (inverseLoop c x layers v).1 = .ok ()) := by
  induction layers generalizing v with
  | nil => exact ⟨hv, rfl, fun _ => rfl, fun _ => rfl⟩
  | cons l ls ih =>
    obtain ⟨name, w⟩ := l
    obtain ⟨v', hg, hv', hc, hs⟩ := DevInv.get_fits hv name
    obtain ⟨i1, i2, i3, i4⟩ := ih v' hv'
    unfold inverseLoop
    rw [hg]
    simp only
    cases hr : (do if w then useInverse (c.1.get name) x
                   useInverse (c.2.get name) x : Py Unit) with
    | error e =>
      refine ⟨hv', hc, hs, fun h => ?_⟩
      have hl := h (name, w) List.mem_cons_self
      simp only at hl
      cases w
      · simp [hl.2, useInverse] at hr
      · simp [hl.1 rfl, hl.2, useInverse, bind, Except.bind] at hr
    | ok u =>
      refine ⟨i1, i2.trans hc, fun hf => (i3 (hc.trans hf)).trans (hs hf), fun h => ?_⟩
      exact i4 fun l hl => h l (List.mem_cons_of_mem _ hl)

/-- The change of an operator from `o` to `o'` and of the memory: only the operator's dictionaries and model are touched, and
the operator is settled on device `d` afterwards. -/
structure Framed (d : D) (m m' : DevMem D) (o o' : DevKfac D) : Prop where
  ref : o'.ref = o.ref
  model : o'.model = o.model
  layers : o'.layers = o.layers
  device : o'.device = d
  cells : ∀ r, r ≠ o.ref → m'.cells r = m.cells r
  models : ∀ k, k ≠ o.model → m'.models k = m.models k
  settled : o'.Settled m'

theorem ensure_framed {m : DevMem D} {o : DevKfac D} (h : o.Settled m) :
    Framed o.device m (o.ensure m).2.1 o (o.ensure m).2.2 ∧
      (o.ensure m).2.1.cells o.ref = fullCell o.device o.layers := by
  obtain ⟨h1, h2, h3, h4, h5, h6, h7⟩ := ensure_settled h
  refine ⟨⟨h4, h5, h6, h3, fun r hr => ?_, fun k _ => ?_, ?_⟩, ?_⟩
  · rw [h2]; exact Function.update_of_ne hr _ _
  · rw [h2]
  · refine ⟨?_, Or.inr ?_⟩
    · rw [h2, h5, h3]; exact h.1
    · rw [h2, h4, h3, h6]; simp
  · rw [h2]; simp

theorem product_framed {m : DevMem D} {o : DevKfac D} (h : o.Settled m) (x : D) :
    Framed o.device m (o.product x m).2.1 o (o.product x m).2.2 := by
  have he := (ensure_framed h).1
  have h1 := (ensure_settled h).1
  unfold DevKfac.product
  generalize o.ensure m = r at *
  obtain ⟨r, m', o'⟩ := r
  simp only at h1
  subst h1
  exact he

theorem getTrace_framed {m : DevMem D} {o : DevKfac D} (h : o.Settled m) (mix : D → D → Py D) :
    Framed o.device m (o.getTrace mix m).2.1 o (o.getTrace mix m).2.2 := by
  unfold DevKfac.getTrace
  split
  · exact ⟨rfl, rfl, rfl, rfl, fun _ _ => rfl, fun _ _ => rfl, h⟩
  · have he := (ensure_framed h).1
    have h1 := (ensure_settled h).1
    generalize o.ensure m = r at *
    obtain ⟨r, m', o'⟩ := r
    simp only at h1
    subst h1
    exact ⟨he.ref, he.model, he.layers, he.device, he.cells, he.models, he.settled⟩

omit [DecidableEq D] in
/-- `to_device` settles an operator whose factors are not computed or all on one device, whichever. -/
theorem toDevice_framed' {m : DevMem D} {o : DevKfac D}
    (h : m.cells o.ref = ([], []) ∨ ∃ d, m.cells o.ref = fullCell d o.layers) (d : D) :
    Framed d m (o.toDevice d m).1 o (o.toDevice d m).2 := by
  refine ⟨rfl, rfl, rfl, rfl, fun r hr => Function.update_of_ne hr _ _, fun k hk => Function.update_of_ne hk _ _, ?_, ?_⟩
  · simp [DevKfac.toDevice]
  · simp only [DevKfac.toDevice, Function.update_self]
    rcases h with h | ⟨d', h⟩
    · left; simp [h]
    · right; rw [h]; exact fullCell_move _ _ _

omit [DecidableEq D] in
theorem toDevice_framed {m : DevMem D} {o : DevKfac D} (h : o.Settled m) (d : D) :
    Framed d m (o.toDevice d m).1 o (o.toDevice d m).2 :=
  toDevice_framed' (h.2.imp_right fun h => ⟨_, h⟩) d

omit [DecidableEq D] in
theorem Framed.trans {d d' : D} {m m' m'' : DevMem D} {o o' o'' : DevKfac D} (h : Framed d m m' o o')
    (h' : Framed d' m' m'' o' o'') : Framed d' m m'' o o'' :=
  ⟨h'.ref.trans h.ref, h'.model.trans h.model, h'.layers.trans h.layers, h'.device,
    fun r hr => (h'.cells r (h.ref ▸ hr)).trans (h.cells r hr),
    fun k hk => (h'.models k (h.model ▸ hk)).trans (h.models k hk), h'.settled⟩

theorem check_framed' {m : DevMem D} {o : DevKfac D}
    (h : m.cells o.ref = ([], []) ∨ ∃ d, m.cells o.ref = fullCell d o.layers) (cpu : D) (same : Bool) :
    Framed o.device m (o.check cpu same m).2.1 o (o.check cpu same m).2.2 := by
  have h1 := toDevice_framed' h cpu
  have h2 := product_framed h1.settled cpu
  exact (h1.trans h2).trans (toDevice_framed h2.settled o.device)

theorem check_framed {m : DevMem D} {o : DevKfac D} (h : o.Settled m) (cpu : D) (same : Bool) :
    Framed o.device m (o.check cpu same m).2.1 o (o.check cpu same m).2.2 :=
  check_framed' (h.2.imp_right fun h => ⟨_, h⟩) cpu same

/-- The check itself only fails if results differ, never because of devices. -/
theorem check_settled' {m : DevMem D} {o : DevKfac D}
    (h : m.cells o.ref = ([], []) ∨ ∃ d, m.cells o.ref = fullCell d o.layers) (cpu : D) (same : Bool) :
    (o.check cpu same m).1 = if same then .ok () else .error .runtimeError := by
  have h1 := toDevice_framed' h cpu
  have h2 := product_settled h1.settled
  rw [h1.device] at h2
  unfold DevKfac.check
  simp only [h2]
  rfl

theorem check_settled {m : DevMem D} {o : DevKfac D} (h : o.Settled m) (cpu : D) (same : Bool) :
    (o.check cpu same m).1 = if same then .ok () else .error .runtimeError :=
  check_settled' (h.2.imp_right fun h => ⟨_, h⟩) cpu same

/-- After the check, the factors are computed and on the operator's device. -/
theorem check_cell {m : DevMem D} {o : DevKfac D}
    (h : m.cells o.ref = ([], []) ∨ ∃ d, m.cells o.ref = fullCell d o.layers) (cpu : D) (same : Bool) :
    (o.check cpu same m).2.1.cells o.ref = fullCell o.device o.layers := by
  have h1 := toDevice_framed' h cpu
  have h2 := product_framed h1.settled cpu
  have hc : ((o.toDevice cpu m).2.product cpu (o.toDevice cpu m).1).2.1.cells o.ref = fullCell cpu o.layers := by
    have he := (ensure_framed h1.settled).2
    have ho := (ensure_settled h1.settled).1
    unfold DevKfac.product
    generalize (o.toDevice cpu m).2.ensure (o.toDevice cpu m).1 = r at *
    obtain ⟨r, m', o'⟩ := r
    simp only at ho
    subst ho
    exact he
  have hr : ((o.toDevice cpu m).2.product cpu (o.toDevice cpu m).1).2.2.ref = o.ref := h2.ref
  show ((((o.toDevice cpu m).2.product cpu (o.toDevice cpu m).1).2.2.toDevice o.device
    ((o.toDevice cpu m).2.product cpu (o.toDevice cpu m).1).2.1).1.cells o.ref) = _
  generalize (o.toDevice cpu m).2.product cpu (o.toDevice cpu m).1 = q at *
  obtain ⟨q, m2, o2⟩ := q
  simp only at hc hr
  simp only [DevKfac.toDevice, hr, Function.update_self, hc]
  exact fullCell_move _ _ _

theorem invProduct_framed {m : DevMem D} {o : DevKfac D} (h : o.Settled m) (v : DevInv D) (x : D) :
    Framed o.device m (v.product x m o).2.1 o (v.product x m o).2.2.1 := by
  have he := (ensure_framed h).1
  have h1 := (ensure_settled h).1
  unfold DevInv.product
  generalize o.ensure m = r at *
  obtain ⟨r, m', o'⟩ := r
  simp only at h1
  subst h1
  exact he

/-- Products with an inverse whose cached entries are on the devices of the factors succeed on the operator's device, and the
new entries are there, too. -/
theorem invProduct_settled {m : DevMem D} {o : DevKfac D} (h : o.Settled m) (v : DevInv D)
    (hv : v.Fits (fullCell o.device o.layers)) :
    (v.product o.device m o).1 = .ok o.device ∧
    ∀ x, (v.product x m o).2.2.2.Fits (fullCell o.device o.layers) ∧ (v.product x m o).2.2.2.cache = v.cache ∧
      (v.cache = false → (v.product x m o).2.2.2 = v) := by
  have he := (ensure_framed h).2
  obtain ⟨h1, -, -, h4, -, h6, -⟩ := ensure_settled h
  unfold DevInv.product
  generalize o.ensure m = r at *
  obtain ⟨r, m', o'⟩ := r
  simp only at h1 h4 h6 he
  subst h1
  simp only [h4, h6, he]
  constructor
  · rw [(inverseLoop_fits _ _ _ _ hv).2.2.2]
    · rfl
    · exact fun l hl => ⟨fun hw => fullCell_get_input _ _ hl hw, fullCell_get_grad _ _ hl⟩
  · intro x
    obtain ⟨f1, f2, f3, -⟩ := inverseLoop_fits (fullCell o.device o.layers) x o.layers v hv
    exact ⟨f1, f2, f3⟩

/-! ## Sequences of calls -/

/-- Operators that share neither dictionaries nor models, all of them settled. -/
structure DevSys.Separate (s : DevSys D) : Prop where
  refs : Function.Injective fun i => (s.ops i).ref
  models : Function.Injective fun i => (s.ops i).model
  settled : ∀ i, (s.ops i).Settled s.mem

/-- Newly constructed operators (without the determinism check, which is a call here) with models of their own, and newly
constructed inverses. -/
structure DevSys.Fresh (s : DevSys D) : Prop where
  refs : Function.Injective fun i => (s.ops i).ref
  models : Function.Injective fun i => (s.ops i).model
  device : ∀ i, s.mem.models (s.ops i).model = (s.ops i).device
  empty : ∀ i, s.mem.cells (s.ops i).ref = ([], [])
  invs : ∀ i, (s.invs i).inputs = [] ∧ (s.invs i).grads = []

/-- The device that the caller asked for last. -/
def lastDevice (i : Nat) (d : D) : List (DevCall D) → D
  | [] => d
  | .toDevice j d' :: cs => lastDevice i (if j = i then d' else d) cs
  | _ :: cs => lastDevice i d cs

/-- The call is `load_state_dict`. -/
def DevCall.isLoad : DevCall D → Bool
  | .load _ _ => true
  | _ => false

/-- The call is `to_device` of operator `i`. -/
def DevCall.moves (i : Nat) : DevCall D → Bool
  | .toDevice j _ => decide (j = i)
  | _ => false

omit [DecidableEq D] in
theorem Separate.update {s : DevSys D} (h : s.Separate) {i : Nat} {d : D} {m' : DevMem D} {o' : DevKfac D}
    {invs' : Nat → DevInv D} (hf : Framed d s.mem m' (s.ops i) o') :
    (DevSys.mk m' (Function.update s.ops i o') invs').Separate := by
  have href : (fun j => (Function.update s.ops i o' j).ref) = fun j => (s.ops j).ref := by
    funext j
    by_cases hj : j = i
    · subst hj; simpa using hf.ref
    · simp [hj]
  have hmod : (fun j => (Function.update s.ops i o' j).model) = fun j => (s.ops j).model := by
    funext j
    by_cases hj : j = i
    · subst hj; simpa using hf.model
    · simp [hj]
  refine ⟨?_, ?_, ?_⟩
  · simpa only [href] using h.refs
  · simpa only [hmod] using h.models
  · intro j
    by_cases hj : j = i
    · subst hj; simpa using hf.settled
    · simp only [Function.update_of_ne hj]
      obtain ⟨h1, h2⟩ := h.settled j
      refine ⟨?_, ?_⟩
      · rw [hf.models _ fun he => hj (h.models he)]; exact h1
      · rw [hf.cells _ fun he => hj (h.refs he)]; exact h2

/-- What one call does to a system of separate operators. -/
theorem step_separate {s : DevSys D} (h : s.Separate) (cpu : D) (mix : D → D → Py D) (c : DevCall D)
    (hc : c.isLoad = false) :
    (s.step cpu mix c).Separate ∧
    (∀ i, ((s.step cpu mix c).ops i).device = lastDevice i (s.ops i).device [c] ∧
      ((s.step cpu mix c).ops i).layers = (s.ops i).layers) ∧
    ∀ i, ((s.invs i).Fits (fullCell (s.ops i).device (s.ops i).layers) →
        ((s.step cpu mix c).invs i).Fits (fullCell (s.ops i).device (s.ops i).layers) ∧
        ((s.step cpu mix c).invs i).cache = (s.invs i).cache ∧
        ((s.invs i).cache = false → (s.step cpu mix c).invs i = s.invs i)) := by
  have triv : ∀ i, ((s.invs i).Fits (fullCell (s.ops i).device (s.ops i).layers) →
        (s.invs i).Fits (fullCell (s.ops i).device (s.ops i).layers) ∧
        (s.invs i).cache = (s.invs i).cache ∧ ((s.invs i).cache = false → s.invs i = s.invs i)) :=
    fun i hi => ⟨hi, rfl, fun _ => rfl⟩
  have dev : ∀ {i : Nat} {m' : DevMem D} {o' : DevKfac D} {d : D}, Framed d s.mem m' (s.ops i) o' → ∀ j,
      (Function.update s.ops i o' j).device = (if j = i then d else (s.ops j).device) ∧
      (Function.update s.ops i o' j).layers = (s.ops j).layers := by
    intro i m' o' d hf j
    by_cases hj : j = i
    · subst hj; simpa using ⟨hf.device, hf.layers⟩
    · simp [hj]
  have same : ∀ {i : Nat} {m' : DevMem D} {o' : DevKfac D}, Framed (s.ops i).device s.mem m' (s.ops i) o' → ∀ j,
      (Function.update s.ops i o' j).device = (s.ops j).device ∧
      (Function.update s.ops i o' j).layers = (s.ops j).layers := by
    intro i m' o' hf j
    obtain ⟨h1, h2⟩ := dev hf j
    refine ⟨h1.trans ?_, h2⟩
    split <;> simp_all
  cases c with
  | product i x =>
    have hf := product_framed (h.settled i) x
    exact ⟨Separate.update h hf, same hf, triv⟩
  | trace i =>
    have hf := getTrace_framed (h.settled i) mix
    exact ⟨Separate.update h hf, same hf, triv⟩
  | toDevice i d =>
    have hf := toDevice_framed (h.settled i) d
    refine ⟨Separate.update h hf, fun j => ?_, triv⟩
    obtain ⟨h1, h2⟩ := dev hf j
    refine ⟨h1.trans ?_, h2⟩
    simp only [lastDevice, eq_comm]
  | check i b =>
    have hf := check_framed (h.settled i) cpu b
    exact ⟨Separate.update h hf, same hf, triv⟩
  | inverse i x =>
    have hf := invProduct_framed (h.settled i) (s.invs i) x
    refine ⟨Separate.update h hf, same hf, fun j hj => ?_⟩
    by_cases hji : j = i
    · subst hji
      simpa [DevSys.step] using (invProduct_settled (h.settled j) (s.invs j) hj).2 x
    · simpa [DevSys.step, hji] using hj
  | load i j => simp [DevCall.isLoad] at hc

omit [DecidableEq D] in
theorem lastDevice_cons (i : Nat) (d : D) (c : DevCall D) (cs : List (DevCall D)) :
    lastDevice i d (c :: cs) = lastDevice i (lastDevice i d [c]) cs := by
  cases c <;> rfl

theorem run_separate {s : DevSys D} (h : s.Separate) (cpu : D) (mix : D → D → Py D) (cs : List (DevCall D))
    (hcs : ∀ c ∈ cs, c.isLoad = false) (i : Nat) :
    (s.run cpu mix cs).Separate ∧
    ((s.run cpu mix cs).ops i).device = lastDevice i (s.ops i).device cs ∧
    ((s.run cpu mix cs).ops i).layers = (s.ops i).layers ∧
    ((s.invs i).Fits (fullCell (s.ops i).device (s.ops i).layers) →
      (∀ c ∈ cs, c.moves i = false) →
        ((s.run cpu mix cs).invs i).Fits (fullCell (s.ops i).device (s.ops i).layers) ∧
        ((s.run cpu mix cs).ops i).device = (s.ops i).device) ∧
    ((s.invs i) = { cache := false } → (s.run cpu mix cs).invs i = { cache := false }) := by
  induction cs generalizing s with
  | nil => exact ⟨h, rfl, rfl, fun hf _ => ⟨hf, rfl⟩, id⟩
  | cons c cs ih =>
    obtain ⟨h1, h2, h3⟩ := step_separate h cpu mix c (hcs c List.mem_cons_self)
    obtain ⟨j1, j2, j3, j4, j5⟩ := ih h1 fun c hc => hcs c (List.mem_cons_of_mem _ hc)
    refine ⟨j1, ?_, j3.trans (h2 i).2, ?_, ?_⟩
    · rw [lastDevice_cons, ← (h2 i).1]; exact j2
    · intro hf hmv
      have hd : ((s.step cpu mix c).ops i).device = (s.ops i).device := by
        rw [(h2 i).1]
        have := hmv c List.mem_cons_self
        cases c <;> simp_all [lastDevice, DevCall.moves]
      have := j4 (by rw [hd, (h2 i).2]; exact (h3 i hf).1) fun c hc => hmv c (List.mem_cons_of_mem _ hc)
      rw [hd, (h2 i).2] at this
      exact this
    · intro he
      refine j5 ?_
      have hfits : (s.invs i).Fits (fullCell (s.ops i).device (s.ops i).layers) := by
        rw [he]; intro n hn; simp [Dict.has] at hn
      rw [← he]
      exact (h3 i hfits).2.2 (by rw [he])

/-- C81, without `load_state_dict`: start with newly constructed operators that do not share their models, and make any calls
(products with matrices on any device, traces, `to_device`, determinism checks with any outcome, products with inverses;
exceptions are caught). Then every operator is on the device asked for last, all its factors are on that device, products on that
device succeed with their result there, the determinism check does not fail because of devices, and products with the inverse
succeed if it does not cache, or if the operator has not been moved. Missing: `load_state_dict`, `from_state_dict`, models shared
between operators, and inverses that cache, for which the claim fails (below). -/
theorem kfac_devices_partial (s : DevSys D) (h : s.Fresh) (cpu : D) (mix : D → D → Py D) (cs : List (DevCall D))
    (hcs : ∀ c ∈ cs, c.isLoad = false) (i : Nat) :
    let s' := s.run cpu mix cs
    let d := lastDevice i (s.ops i).device cs
    (s'.ops i).device = d ∧ AllOn d (s'.mem.cells (s'.ops i).ref) ∧
    ((s'.ops i).product d s'.mem).1 = .ok d ∧
    (∀ same, ((s'.ops i).check cpu same s'.mem).1 = if same then .ok () else .error .runtimeError) ∧
    ((s.invs i).cache = false ∨ (∀ c ∈ cs, c.moves i = false) →
      ((s'.invs i).product d s'.mem (s'.ops i)).1 = .ok d) := by
  have hs : s.Separate := ⟨h.refs, h.models, fun i => ⟨h.device i, Or.inl (h.empty i)⟩⟩
  obtain ⟨r1, r2, r3, r4, r5⟩ := run_separate hs cpu mix cs hcs i
  have hset := r1.settled i
  refine ⟨r2, ?_, ?_, fun same => check_settled hset cpu same, ?_⟩
  · rw [← r2]; exact hset.allOn
  · rw [← r2]; exact product_settled hset
  · intro hor
    obtain ⟨hi1, hi2⟩ := h.invs i
    rw [← r2]
    refine (invProduct_settled hset _ ?_).1
    rcases hor with hc | hm
    · have : s.invs i = { cache := false } := by
        cases hv : s.invs i; simp_all
      rw [r5 this]
      intro n hn; simp [Dict.has] at hn
    · have hfits : (s.invs i).Fits (fullCell (s.ops i).device (s.ops i).layers) := by
        intro n hn; rw [hi1] at hn; simp [Dict.has] at hn
      obtain ⟨f1, f2⟩ := r4 hfits hm
      rw [f2, r3]
      exact f1

/-! ## One device -/

/-- All operators are on device `d`, with the same layers; dictionaries and models may be shared. -/
def DevSys.OneDevice (d : D) (layers : List (String × Bool)) (s : DevSys D) : Prop :=
  ∀ i, (s.ops i).Settled s.mem ∧ (s.ops i).device = d ∧ (s.ops i).layers = layers ∧
    (s.invs i).Fits (fullCell d layers)

omit [DecidableEq D] in
theorem OneDevice.update {d : D} {layers : List (String × Bool)} {s : DevSys D} (h : s.OneDevice d layers) {i : Nat}
    {m' : DevMem D} {o' : DevKfac D} {v' : DevInv D} (hf : Framed d s.mem m' (s.ops i) o')
    (hv : v'.Fits (fullCell d layers)) :
    (DevSys.mk m' (Function.update s.ops i o') (Function.update s.invs i v')).OneDevice d layers := by
  intro j
  have hi := h i
  by_cases hj : j = i
  · subst hj
    simp only [Function.update_self]
    exact ⟨hf.settled, hf.device, hf.layers.trans hi.2.2.1, hv⟩
  · simp only [Function.update_of_ne hj]
    obtain ⟨⟨a1, a2⟩, a3, a4, a5⟩ := h j
    refine ⟨⟨?_, ?_⟩, a3, a4, a5⟩
    · by_cases hm : (s.ops j).model = (s.ops i).model
      · rw [hm, ← hf.model, hf.settled.1, hf.device, a3]
      · rw [hf.models _ hm]; exact a1
    · by_cases hr : (s.ops j).ref = (s.ops i).ref
      · have := hf.settled.2
        rw [hf.ref, hf.device, hf.layers, hi.2.2.1] at this
        rw [hr, a3, a4]
        exact this
      · rw [hf.cells _ hr]; exact a2

/-- C81 on one device: if no operator is asked to be on another device, then loading state dictionaries, sharing models and
caching inverses are fine, too. -/
theorem kfac_one_device_partial {d : D} {layers : List (String × Bool)} (s : DevSys D) (h : s.OneDevice d layers) (cpu : D)
    (mix : D → D → Py D) (cs : List (DevCall D)) (hcs : ∀ i d', DevCall.toDevice i d' ∈ cs → d' = d) (i : Nat) :
    let s' := s.run cpu mix cs
    (s'.ops i).device = d ∧ ((s'.ops i).product d s'.mem).1 = .ok d ∧
    ((s'.invs i).product d s'.mem (s'.ops i)).1 = .ok d := by
  have hinv : (s.run cpu mix cs).OneDevice d layers := by
    induction cs generalizing s with
    | nil => exact h
    | cons c cs ih =>
      refine ih (s.step cpu mix c) ?_ fun i d' hc => hcs i d' (List.mem_cons_of_mem _ hc)
      have upd : ∀ {i : Nat} {m' : DevMem D} {o' : DevKfac D}, Framed d s.mem m' (s.ops i) o' →
          (DevSys.mk m' (Function.update s.ops i o') s.invs).OneDevice d layers := by
        intro i m' o' hf
        have := OneDevice.update h hf (h i).2.2.2
        rwa [Function.update_eq_self] at this
      cases c with
      | product i x => exact upd ((h i).2.1 ▸ product_framed (h i).1 x)
      | trace i => exact upd ((h i).2.1 ▸ getTrace_framed (h i).1 mix)
      | toDevice i d' =>
        have hd : d' = d := hcs i d' List.mem_cons_self
        subst hd
        exact upd (toDevice_framed (h i).1 d')
      | check i b => exact upd ((h i).2.1 ▸ check_framed (h i).1 cpu b)
      | inverse i x =>
        refine OneDevice.update h (i := i) ((h i).2.1 ▸ invProduct_framed (h i).1 (s.invs i) x) ?_
        have := ((invProduct_settled (h i).1 (s.invs i) (by rw [(h i).2.1, (h i).2.2.1]; exact (h i).2.2.2)).2 x).1
        rwa [(h i).2.1, (h i).2.2.1] at this
      | load i j =>
        intro k
        simp only [DevSys.step]
        by_cases hk : k = i
        · subst hk
          simp only [Function.update_self]
          refine ⟨⟨(h k).1.1, ?_⟩, (h k).2.1, (h k).2.2.1, (h k).2.2.2⟩
          have := (h j).1.2
          rw [(h j).2.1, (h j).2.2.1] at this
          simp only [DevKfac.load, (h k).2.1, (h k).2.2.1]
          exact this
        · simp only [Function.update_of_ne hk]
          exact h k
  intro s'
  obtain ⟨h1, h2, h3, h4⟩ := hinv i
  refine ⟨h2, h2 ▸ product_settled h1, ?_⟩
  have := (invProduct_settled h1 (s'.invs i) (by rw [h2, h3]; exact h4)).1
  rwa [h2] at this

/-! ## Traces -/

omit [DecidableEq D] in
theorem devTraceLoop_ok {mix : D → D → Py D} {d : D} (hmix : mix d d = .ok d) (layers ls : List (String × Bool))
    (hsub : ∀ l ∈ ls, l ∈ layers) (acc : Option D) (hacc : acc = none ∨ acc = some d) :
    devTraceLoop mix (fullCell d layers) ls acc = (.ok (), if ls = [] then acc else some d) := by
  induction ls generalizing acc with
  | nil => rfl
  | cons l ls ih =>
    obtain ⟨name, w⟩ := l
    have hg := fullCell_get_grad d layers (hsub _ List.mem_cons_self)
    have hi := fun hw => fullCell_get_input d layers (hsub _ List.mem_cons_self) hw
    simp only at hg hi
    have hs : (do
      let g ← ((fullCell d layers).2.get name).elim (.error .keyError) .ok
      let t ← if w then do
          let a ← ((fullCell d layers).1.get name).elim (.error .keyError) .ok
          mix a g
        else .ok g
      acc.elim (.ok t) fun s => mix s t : Py D) = .ok d := by
      rcases hacc with rfl | rfl <;> cases w
      · simp [hg, bind, Except.bind]
      · simp [hg, hi rfl, hmix, bind, Except.bind]
      · simp [hg, hmix, bind, Except.bind]
      · simp [hg, hi rfl, hmix, bind, Except.bind]
    unfold devTraceLoop
    simp only [hs]
    rw [ih (fun l hl => hsub l (List.mem_cons_of_mem _ hl)) (some d) (Or.inr rfl)]
    simp

/-- A trace that has to be computed is on the operator's device. -/
theorem trace_device_partial {m : DevMem D} {o : DevKfac D} (h : o.Settled m) {mix : D → D → Py D}
    (hmix : mix o.device o.device = .ok o.device) (ht : o.trace = none) (hl : o.layers ≠ []) :
    (o.getTrace mix m).1 = .ok (some o.device) := by
  obtain ⟨h1, -, -, h4, -, h6, -⟩ := ensure_settled h
  have he := (ensure_framed h).2
  unfold DevKfac.getTrace
  rw [ht]
  simp only
  generalize o.ensure m = r at *
  obtain ⟨r, m', o'⟩ := r
  simp only at h1 h4 h6 he
  subst h1
  simp only [h4, h6, he]
  rw [devTraceLoop_ok hmix _ _ (fun _ => id) none (Or.inl rfl)]
  simp [hl, Except.map]

/-! ## Violations -/

/-- A trace is returned on the device where it was computed, even if the operator has been moved since. -/
theorem trace_stays_on_old_device {m : DevMem D} {o : DevKfac D} (h : o.Settled m) {mix : D → D → Py D}
    (hmix : mix o.device o.device = .ok o.device) (ht : o.trace = none) (hl : o.layers ≠ []) (d : D) :
    let r := o.getTrace mix m
    let r' := r.2.2.toDevice d r.2.1
    (r'.2.getTrace mix r'.1).1 = .ok (some o.device) := by
  have h1 := trace_device_partial h hmix ht hl
  obtain ⟨e1, -, -, e4, -, e6, -⟩ := ensure_settled h
  have htr : (o.getTrace mix m).2.2.trace = some (some o.device) := by
    unfold DevKfac.getTrace at h1 ⊢
    rw [ht] at h1 ⊢
    simp only at h1 ⊢
    generalize o.ensure m = r at *
    obtain ⟨r, m', o'⟩ := r
    simp only at e1
    subst e1
    simp only at h1 ⊢
    generalize devTraceLoop mix (m'.cells o'.ref) o'.layers none = q at *
    obtain ⟨q1, q2⟩ := q
    cases q1 <;> simp_all [Except.map]
  intro r r'
  have : r'.2.trace = some (some o.device) := htr
  unfold DevKfac.getTrace
  rw [this]

/-- A settled operator with computed factors fails on any other device, with `RuntimeError`. -/
theorem product_wrong_device {m : DevMem D} {o : DevKfac D} {d x : D} (hl : o.layers ≠ [])
    (hc : m.cells o.ref = fullCell d o.layers) (hx : d ≠ x) : (o.product x m).1 = .error .runtimeError := by
  have hne : o.ensure m = (.ok (), m, o) := by
    unfold DevKfac.ensure
    rw [if_neg]
    rw [hc]
    cases h : o.layers with
    | nil => exact absurd h hl
    | cons a as => simp [fullCell]
  unfold DevKfac.product
  rw [hne]
  simp only [hc]
  cases h : o.layers with
  | nil => exact absurd h hl
  | cons l ls =>
    obtain ⟨name, w⟩ := l
    have hg : (fullCell d ((name, w) :: ls)).2.get name = some d := fullCell_get_grad d _ (l := (name, w)) List.mem_cons_self
    have hi := fun hw => fullCell_get_input d ((name, w) :: ls) (l := (name, w)) List.mem_cons_self hw
    simp only at hi
    cases w
    · simp [productLoop, useFactor, hg, hx, bind, Except.bind, Except.map]
    · simp [productLoop, useFactor, hi rfl, hx, bind, Except.bind, Except.map]

/-- Violation: `load_state_dict` takes over factors on the device of the other operator, and products raise `RuntimeError`. -/
theorem load_other_device {m : DevMem D} {o other : DevKfac D} (hl : o.layers ≠ []) (hlay : other.layers = o.layers)
    (hc : m.cells other.ref = fullCell other.device other.layers) (hd : other.device ≠ o.device) :
    ((o.load other).product (o.load other).device m).1 = .error .runtimeError := by
  refine product_wrong_device (d := other.device) ?_ ?_ hd
  · exact hl
  · rw [show (o.load other).layers = o.layers from rfl, ← hlay]; exact hc

/-- `from_state_dict` with the determinism check: the restored operator works on the device of its model. -/
theorem restore_check_ok (cpu : D) {m : DevMem D} {other : DevKfac D} (hs : other.Settled m) (model ref : Nat)
    (href : other.ref ≠ ref) :
    let r := DevKfac.restore cpu true true model ref m other
    r.1 = .ok () ∧ r.2.2.device = m.models model ∧ (r.2.2.product r.2.2.device r.2.1).1 = .ok (m.models model) := by
  intro r
  have hc : (Function.update m.cells ref ([], [])) other.ref = ([], []) ∨
      ∃ d, (Function.update m.cells ref ([], [])) other.ref = fullCell d other.layers := by
    rw [Function.update_of_ne href]
    exact hs.2.imp_right fun h => ⟨_, h⟩
  have hf := check_framed' (m := { m with cells := Function.update m.cells ref ([], []) })
    (o := DevKfac.load ⟨m.models model, ref, model, other.layers, other.isMC, none, none⟩ other) hc cpu true
  refine ⟨check_settled' hc cpu true, hf.device, ?_⟩
  have := product_settled hf.settled
  exact this.trans (by rw [hf.device]; rfl)

/-- Violation: `from_state_dict` with the determinism check moves the factors of the operator whose state was saved, which then
cannot be used on its own device if the model of the restored operator is on another one. -/
theorem restore_breaks_source (cpu : D) {m : DevMem D} {other : DevKfac D} (hs : other.Settled m) (hl : other.layers ≠ [])
    (model ref : Nat) (href : other.ref ≠ ref) (hd : m.models model ≠ other.device) (same : Bool) :
    let r := DevKfac.restore cpu true same model ref m other
    (other.product other.device r.2.1).1 = .error .runtimeError := by
  intro r
  have hc : (Function.update m.cells ref ([], [])) other.ref = ([], []) ∨
      ∃ d, (Function.update m.cells ref ([], [])) other.ref = fullCell d other.layers := by
    rw [Function.update_of_ne href]
    exact hs.2.imp_right fun h => ⟨_, h⟩
  refine product_wrong_device (d := m.models model) hl ?_ hd
  exact check_cell (m := { m with cells := Function.update m.cells ref ([], []) })
    (o := DevKfac.load ⟨m.models model, ref, model, other.layers, other.isMC, none, none⟩ other) hc cpu same

/-- Violation: without the check, the restored operator has the factors of the other one on their device, and products raise
`RuntimeError`. -/
theorem restore_unchecked (cpu : D) {m : DevMem D} {other : DevKfac D} (hl : other.layers ≠ [])
    (hc : m.cells other.ref = fullCell other.device other.layers)
    (model ref : Nat) (href : other.ref ≠ ref) (hd : other.device ≠ m.models model) (same : Bool) :
    let r := DevKfac.restore cpu false same model ref m other
    r.1 = .ok () ∧ (r.2.2.product r.2.2.device r.2.1).1 = .error .runtimeError := by
  refine ⟨rfl, product_wrong_device (d := other.device) hl ?_ hd⟩
  exact (Function.update_of_ne href _ _).trans hc

/-- Violation: if two operators share a model and one of them is moved, the other one cannot compute its factors. -/
theorem shared_model {m : DevMem D} {o o' : DevKfac D} (hmod : o'.model = o.model) (href : o'.ref ≠ o.ref)
    (he : m.cells o'.ref = ([], [])) {d : D} (hd : d ≠ o'.device) :
    (o'.product o'.device (o.toDevice d m).1).1 = .error .runtimeError := by
  have hcell : (o.toDevice d m).1.cells o'.ref = ([], []) := (Function.update_of_ne href _ _).trans he
  have hm : (o.toDevice d m).1.models o'.model = d := by rw [hmod]; simp [DevKfac.toDevice]
  unfold DevKfac.product DevKfac.ensure
  rw [hcell]
  simp only [List.isEmpty_nil, Bool.and_self, if_true]
  unfold DevKfac.compute
  simp only [hm, ne_eq, hd, not_false_eq_true, if_true]

omit [DecidableEq D] in
theorem DevInv.get_has {c : DevCell D} {v : DevInv D} (name k : String)
    (h : v.inputs.has k = true ∨ (v.cache = true ∧ k = name)) : (v.get c name).2.2.inputs.has k = true := by
  unfold DevInv.get
  by_cases hh : v.inputs.has name = true
  · rw [if_pos hh]
    rcases h with h | ⟨-, rfl⟩
    · exact h
    · exact hh
  · rw [if_neg hh]
    by_cases hc : v.cache = true
    · simp only [if_pos hc]
      rw [Dict.has_iff, Dict.get_set]
      by_cases hk : k = name
      · simp [hk]
      · rw [if_neg hk, ← Dict.has_iff]
        exact h.resolve_right fun h => hk h.2
    · simp only [if_neg hc]
      exact h.resolve_right fun h => hc h.1

theorem inverseLoop_has (c : DevCell D) (x : D) (layers : List (String × Bool)) (v : DevInv D) (k : String)
    (h : v.inputs.has k = true) : (inverseLoop c x layers v).2.inputs.has k = true := by
  induction layers generalizing v with
  | nil => exact h
  | cons l ls ih =>
    obtain ⟨name, w⟩ := l
    have hg := DevInv.get_has (c := c) name k (Or.inl h)
    unfold inverseLoop
    generalize v.get c name = r at *
    obtain ⟨a, g, v'⟩ := r
    simp only at hg ⊢
    split
    · exact hg
    · exact ih v' hg

/-- Violation: an inverse that caches cannot be used any more after its operator has been moved to another device. -/
theorem cached_inverse_after_move {m : DevMem D} {o : DevKfac D} (h : o.Settled m) (hl : o.layers ≠ []) {d : D}
    (hd : o.device ≠ d) :
    let r := DevInv.product o.device m o { cache := true }
    let q := r.2.2.1.toDevice d r.2.1
    r.1 = .ok o.device ∧ q.2.Settled q.1 ∧ (r.2.2.2.product d q.1 q.2).1 = .error .runtimeError := by
  intro r q
  have hfit : (DevInv.mk true [] [] : DevInv D).Fits (fullCell o.device o.layers) := by
    intro n hn; simp [Dict.has] at hn
  obtain ⟨p1, p2⟩ := invProduct_settled h _ hfit
  obtain ⟨p2, -, -⟩ := p2 o.device
  have hf := invProduct_framed h { cache := true } o.device
  have hq := toDevice_framed hf.settled d
  refine ⟨p1, hq.settled, ?_⟩
  obtain ⟨l, ls, hls⟩ := List.exists_cons_of_ne_nil hl
  obtain ⟨name, w⟩ := l
  -- the first layer's inverses are cached
  have hhas : r.2.2.2.inputs.has name = true := by
    obtain ⟨h1, -, -, -, -, h6, -⟩ := ensure_settled h
    show (DevInv.product o.device m o { cache := true }).2.2.2.inputs.has name = true
    unfold DevInv.product
    generalize o.ensure m = e at *
    obtain ⟨e, m', o'⟩ := e
    simp only at h1 h6
    subst h1
    simp only [h6, hls]
    unfold inverseLoop
    have hg := DevInv.get_has (c := m'.cells o'.ref) (v := { cache := true }) name name (Or.inr ⟨rfl, rfl⟩)
    generalize DevInv.get (m'.cells o'.ref) name { cache := true } = t at *
    obtain ⟨a, g, v'⟩ := t
    simp only at hg ⊢
    split
    · exact hg
    · exact inverseLoop_has _ _ _ _ _ hg
  obtain ⟨g1, g2⟩ := p2 name hhas
  have hgrad : (fullCell o.device o.layers).2.get name = some o.device :=
    fullCell_get_grad _ _ (l := (name, w)) (by simp [hls])
  have hinp : w = true → (fullCell o.device o.layers).1.get name = some o.device := fun hw =>
    fullCell_get_input _ _ (l := (name, w)) (by simp [hls]) hw
  obtain ⟨h1, -, -, -, -, h6, -⟩ := ensure_settled hq.settled
  have hlay : q.2.layers = o.layers := hq.layers.trans hf.layers
  show (DevInv.product d q.1 q.2 r.2.2.2).1 = _
  have h1' : (q.2.ensure q.1).1 = .ok () := h1
  have h6' : (q.2.ensure q.1).2.2.layers = q.2.layers := h6
  unfold DevInv.product
  generalize q.2.ensure q.1 = e at *
  obtain ⟨e, m', o'⟩ := e
  simp only at h1' h6'
  subst h1'
  simp only [h6', hlay, hls]
  unfold inverseLoop
  have hget : r.2.2.2.get (m'.cells o'.ref) name =
      ((fullCell o.device o.layers).1.get name, (fullCell o.device o.layers).2.get name, r.2.2.2) := by
    unfold DevInv.get
    rw [if_pos hhas]
    exact Prod.ext g1 (Prod.ext g2 rfl)
  rw [hget]
  simp only [hgrad]
  cases w
  · simp [useInverse, hd, Except.map]
  · simp [useInverse, hinp rfl, hd, Except.map, bind, Except.bind]

/-! ## Examples -/

section Examples

/-- Two operators for models of their own, with a convolution without weight (only its bias is a parameter) and a linear layer;
`true` is the GPU. The second inverse does not cache. -/
private def twoOps : DevSys Bool where
  mem := ⟨fun _ => ([], []), fun _ => true⟩
  ops i := ⟨true, i, i, [("conv", false), ("fc", true)], true, none, none⟩
  invs i := { cache := decide (i = 0) }

private theorem twoOps_fresh : twoOps.Fresh :=
  ⟨fun _ _ h => h, fun _ _ h => h, fun _ => rfl, fun _ => rfl, fun _ => ⟨rfl, rfl⟩⟩

private def noMix (a b : Bool) : Py Bool := if a = b then .ok a else .error .runtimeError

private def someCalls : List (DevCall Bool) :=
  [.check 0 true, .product 0 true, .toDevice 1 false, .inverse 1 false, .product 1 true, .toDevice 1 true, .inverse 0 true,
    .trace 0, .check 1 false]

example : let s' := twoOps.run false noMix someCalls
    ((s'.ops 1).product true s'.mem).1 = .ok true ∧ ((s'.invs 1).product true s'.mem (s'.ops 1)).1 = .ok true ∧
    ((s'.invs 0).product true s'.mem (s'.ops 0)).1 = .ok true := by
  have h1 := kfac_devices_partial twoOps twoOps_fresh false noMix someCalls (by decide) 1
  have h0 := kfac_devices_partial twoOps twoOps_fresh false noMix someCalls (by decide) 0
  exact ⟨h1.2.2.1, h1.2.2.2.2 (Or.inl rfl), h0.2.2.2.2 (Or.inr (by decide))⟩

-- the first product of the second operator on the wrong device did fail, and left no trace
example : let s' := twoOps.run false noMix (someCalls.take 4)
    ((s'.ops 1).product true s'.mem).1 = .error .runtimeError := rfl

-- on one device, loading is fine
example : let s' := twoOps.run false noMix [.check 0 true, .inverse 1 true, .load 1 0, .product 0 false, .check 1 false]
    ((s'.ops 0).product true s'.mem).1 = .ok true ∧ ((s'.invs 0).product true s'.mem (s'.ops 0)).1 = .ok true :=
  (kfac_one_device_partial (d := true) (layers := [("conv", false), ("fc", true)]) twoOps
    (fun _ => ⟨⟨rfl, Or.inl rfl⟩, rfl, rfl, fun n hn => by simp [twoOps, Dict.has] at hn⟩) false noMix _ (by simp) 0).2

-- an operator on the CPU that loads the state of the one on the GPU
example : let s' := twoOps.run false noMix [.product 0 true, .toDevice 1 false, .load 1 0]
    ((s'.ops 1).product false s'.mem).1 = .error .runtimeError := rfl

-- once it is moved to the CPU again it works, but the other operator does not
example : let s' := twoOps.run false noMix [.product 0 true, .toDevice 1 false, .load 1 0, .toDevice 1 false]
    ((s'.ops 1).product false s'.mem).1 = .ok false ∧ ((s'.ops 0).product true s'.mem).1 = .error .runtimeError :=
  ⟨rfl, rfl⟩

-- a cached inverse and a cached trace
example : let s' := twoOps.run false noMix [.inverse 0 true, .trace 0, .toDevice 0 false]
    ((s'.invs 0).product false s'.mem (s'.ops 0)).1 = .error .runtimeError ∧
    ((s'.ops 0).getTrace noMix s'.mem).1 = .ok (some true) :=
  ⟨rfl, rfl⟩

end Examples

end Curvlinops
