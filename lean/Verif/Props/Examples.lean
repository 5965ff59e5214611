import Verif.Model.Examples
import Verif.Props.Rearrange
import Mathlib.Tactic.NormNum

/-!
# C78, C79: `_concatenate_batches` and `report_nonclose`
-/

namespace Curvlinops

variable {α β : Type}

/-! ## C78 -/

/-- Specification: the entries of a tensor along its first axis. -/
def Tensor.firstRows (t : Tensor α) : List (List α) :=
  (List.range (t.shape.headD 0)).map fun i => (t.data.drop (i * t.shape.tail.prod)).take t.shape.tail.prod

/-- A tensor with `n` rows of the given shape. -/
def Tensor.HasRows (t : Tensor α) (n : Nat) (rest : List Nat) : Prop := t.shape = n :: rest ∧ t.data.length = n * rest.prod

/-- A mini-batch of tensors: as many inputs as labels. -/
structure IsBatch (restX restY : List Nat) (b : XVal α × Tensor β) : Prop where
  ex : ∃ t n, b.1 = .tensor t ∧ t.HasRows n restX ∧ b.2.HasRows n restY

/-- Specification: the pairs of inputs and labels of a mini-batch. -/
def batchPairs (b : XVal α × Tensor β) : List (List α × List β) :=
  match b.1 with
  | .tensor t => t.firstRows.zip b.2.firstRows
  | .mapping _ => []

theorem Tensor.HasRows.length {t : Tensor α} {n : Nat} {rest : List Nat} (h : t.HasRows n rest) : t.firstRows.length = n := by
  simp [Tensor.firstRows, h.1]

/-- The rows determine the tensor. -/
theorem Tensor.HasRows.flatten {t : Tensor α} {n : Nat} {rest : List Nat} (h : t.HasRows n rest) :
    t.firstRows.flatten = t.data := by
  have key : ∀ (m : Nat) (l : List α), l.length = m * rest.prod →
      ((List.range m).map fun i => (l.drop (i * rest.prod)).take rest.prod).flatten = l := by
    intro m
    induction m with
    | zero => intro l hl; simp at hl; simp [hl]
    | succ m ih =>
      intro l hl
      rw [List.range_succ_eq_map, List.map_cons, List.map_map, List.flatten_cons]
      have := ih (l.drop rest.prod) (by rw [List.length_drop, hl, Nat.succ_mul]; omega)
      have e : ((fun i => (l.drop (i * rest.prod)).take rest.prod) ∘ Nat.succ) =
          fun i => ((l.drop rest.prod).drop (i * rest.prod)).take rest.prod := by
        funext i
        simp only [Function.comp_apply, List.drop_drop, Nat.succ_mul]
        rw [Nat.add_comm]
      rw [e, this]
      simp
  have h1 := h.1
  unfold Tensor.firstRows
  simp only [h1, List.headD_cons, List.tail_cons]
  exact key n t.data h.2

theorem firstRows_cat (ts : List (Tensor α)) (rest : List Nat) (n : Tensor α → Nat) (h : ∀ t ∈ ts, t.HasRows (n t) rest) :
    Tensor.firstRows ⟨(ts.map n).sum :: rest, (ts.map (·.data)).flatten⟩ = ts.flatMap Tensor.firstRows := by
  induction ts with
  | nil => rfl
  | cons t ts ih =>
    have ih := ih fun u hu => h u (by simp [hu])
    have ht := h t (by simp)
    rw [List.flatMap_cons, ← ih]
    simp only [Tensor.firstRows, List.headD_cons, List.tail_cons, List.map_cons, List.sum_cons, List.flatten_cons, ht.1]
    rw [List.range_add, List.map_append]
    congr 1
    · refine List.map_congr_left fun i hi => ?_
      have hi := List.mem_range.mp hi
      have hle : (i + 1) * rest.prod ≤ n t * rest.prod := Nat.mul_le_mul_right _ hi
      rw [Nat.succ_mul] at hle
      rw [List.drop_append_of_le_length (by rw [ht.2]; omega), List.take_append_of_le_length (by rw [List.length_drop, ht.2]; omega)]
    · rw [List.map_map]
      refine List.map_congr_left fun i _ => ?_
      simp only [Function.comp_apply]
      rw [Nat.add_mul, ← ht.2, List.drop_append, List.drop_eq_nil_of_le (by omega), List.nil_append]
      congr 2
      omega

theorem zip_flatMap_rows {γ δ ε : Type _} (f : γ → List δ) (g : γ → List ε) (l : List γ) (h : ∀ x ∈ l, (f x).length = (g x).length) :
    (l.flatMap f).zip (l.flatMap g) = l.flatMap fun x => (f x).zip (g x) := by
  induction l with
  | nil => rfl
  | cons x l ih =>
    rw [List.flatMap_cons, List.flatMap_cons, List.flatMap_cons, List.zip_append (h x (by simp)),
      ih fun y hy => h y (by simp [hy])]

theorem catInputs_tensors (ts : List (Tensor α)) : catInputs (ts.map XVal.tensor) = Tensor.cat0 ts := by
  have h : ∀ ts : List (Tensor α), pyMapM (fun x => match x with
      | XVal.tensor t => Except.ok t
      | XVal.mapping _ => .error .typeError) (ts.map XVal.tensor) = .ok ts := by
    intro ts
    induction ts with
    | nil => rfl
    | cons t ts ih => simp [pyMapM, ih]
  exact congrArg (fun r : Py (List (Tensor α)) => r.bind Tensor.cat0) (h ts)

theorem catKey_mappings (key : String) (ds : List (Dict (Tensor α))) (ts : List (Tensor α))
    (hk : ds.map (fun d => Dict.get d key) = ts.map some) : catKey key (ds.map XVal.mapping) = Tensor.cat0 ts := by
  have h : ∀ (ds : List (Dict (Tensor α))) (ts : List (Tensor α)), ds.map (fun d => Dict.get d key) = ts.map some →
      pyMapM (fun x => match x with
        | XVal.tensor _ => Except.error .typeError
        | XVal.mapping d => match Dict.get d key with
          | none => .error .keyError
          | some t => .ok t) (ds.map XVal.mapping) = .ok ts := by
    intro ds
    induction ds with
    | nil =>
      intro ts h
      cases ts with
      | nil => rfl
      | cons _ _ => simp at h
    | cons b bs ih =>
      intro ts h
      cases ts with
      | nil => simp at h
      | cons t ts =>
        simp only [List.map_cons, List.cons.injEq] at h
        simp only [List.map_cons, pyMapM, h.1, ih ts h.2]
  exact congrArg (fun r : Py (List (Tensor α)) => r.bind Tensor.cat0) (h ds ts hk)

theorem concatenateBatches_tensors (ts : List (Tensor α)) (ys : List (Tensor β)) (hl : ts.length = ys.length) (hne : ts ≠ [])
    (key : Option String) : concatenateBatches ((ts.map XVal.tensor).zip ys) key = (do
      let y ← Tensor.cat0 ys
      let X ← Tensor.cat0 ts
      .ok (.tensor X, y)) := by
  obtain ⟨t, ts, rfl⟩ := List.exists_cons_of_ne_nil hne
  cases ys with
  | nil => simp at hl
  | cons y ys =>
    have e1 : (((t :: ts).map XVal.tensor).zip (y :: ys)).map Prod.snd = y :: ys := List.map_snd_zip (by simp at hl ⊢; omega)
    have e2 : (((t :: ts).map XVal.tensor).zip (y :: ys)).map Prod.fst = (t :: ts).map XVal.tensor :=
      List.map_fst_zip (by simp at hl ⊢; omega)
    show (do
      let z ← Tensor.cat0 ((((t :: ts).map XVal.tensor).zip (y :: ys)).map Prod.snd)
      let X ← catInputs ((((t :: ts).map XVal.tensor).zip (y :: ys)).map Prod.fst)
      Except.ok (XVal.tensor X, z)) = _
    rw [e1, e2, catInputs_tensors]

theorem concatenateBatches_mappings (ds : List (Dict (Tensor α))) (ys : List (Tensor β)) (hl : ds.length = ys.length) (hne : ds ≠ [])
    (key : String) : concatenateBatches ((ds.map XVal.mapping).zip ys) (some key) = (do
      let y ← Tensor.cat0 ys
      let X ← catKey key (ds.map XVal.mapping)
      .ok (.mapping [(key, X)], y)) := by
  obtain ⟨d, ds, rfl⟩ := List.exists_cons_of_ne_nil hne
  cases ys with
  | nil => simp at hl
  | cons y ys =>
    have e1 : (((d :: ds).map XVal.mapping).zip (y :: ys)).map Prod.snd = y :: ys := List.map_snd_zip (by simp at hl ⊢; omega)
    have e2 : (((d :: ds).map XVal.mapping).zip (y :: ys)).map Prod.fst = (d :: ds).map XVal.mapping :=
      List.map_fst_zip (by simp at hl ⊢; omega)
    show (do
      let z ← Tensor.cat0 ((((d :: ds).map XVal.mapping).zip (y :: ys)).map Prod.snd)
      let X ← catKey key ((((d :: ds).map XVal.mapping).zip (y :: ys)).map Prod.fst)
      Except.ok (XVal.mapping [(key, X)], z)) = _
    rw [e1, e2]

/-- C78: for tensor inputs, the concatenated data are the pairs of inputs and labels of all mini-batches, in order. -/
theorem concatenateBatches_pairs (data : List (XVal α × Tensor β)) (hne : data ≠ []) (restX restY : List Nat)
    (h : ∀ b ∈ data, IsBatch restX restY b) (key : Option String) :
    ∃ X y n, concatenateBatches data key = .ok (.tensor X, y) ∧ X.HasRows n restX ∧ y.HasRows n restY ∧
      X.firstRows.zip y.firstRows = data.flatMap batchPairs := by
  obtain ⟨ps, rfl⟩ : ∃ ps : List (Tensor α × Tensor β), data = ps.map fun p => (XVal.tensor p.1, p.2) := by
    clear hne
    induction data with
    | nil => exact ⟨[], rfl⟩
    | cons b bs ih =>
      obtain ⟨ps, rfl⟩ := ih fun c hc => h c (by simp [hc])
      obtain ⟨t, n, ht, -⟩ := (h b (by simp)).ex
      exact ⟨(t, b.2) :: ps, by simp [← ht]⟩
  have hp : ∀ p ∈ ps, p.1.HasRows (p.1.shape.headD 0) restX ∧ p.2.HasRows (p.2.shape.headD 0) restY ∧
      p.1.shape.headD 0 = p.2.shape.headD 0 := by
    intro p hp
    obtain ⟨t, n, ht, hx, hy⟩ := (h (XVal.tensor p.1, p.2) (List.mem_map.mpr ⟨p, hp, rfl⟩)).ex
    simp only [XVal.tensor.injEq] at ht
    subst ht
    have e1 : p.1.shape.headD 0 = n := by rw [hx.1]; rfl
    have e2 : p.2.shape.headD 0 = n := by rw [show p.2.shape = n :: restY from hy.1]; rfl
    rw [e1, e2]
    exact ⟨hx, hy, rfl⟩
  have hps : ps ≠ [] := by rintro rfl; exact hne rfl
  have hcatX := cat0_ok (ps.map Prod.fst) (by simpa using hps) restX (fun t => t.shape.headD 0) (by
    intro t ht
    obtain ⟨p, hp', rfl⟩ := List.mem_map.mp ht
    exact (hp p hp').1.1)
  have hcatY := cat0_ok (ps.map Prod.snd) (by simpa using hps) restY (fun t => t.shape.headD 0) (by
    intro t ht
    obtain ⟨p, hp', rfl⟩ := List.mem_map.mp ht
    exact (hp p hp').2.1.1)
  have hrowsX := firstRows_cat (ps.map Prod.fst) restX (fun t => t.shape.headD 0) (by
    intro t ht
    obtain ⟨p, hp', rfl⟩ := List.mem_map.mp ht
    exact (hp p hp').1)
  have hrowsY := firstRows_cat (ps.map Prod.snd) restY (fun t => t.shape.headD 0) (by
    intro t ht
    obtain ⟨p, hp', rfl⟩ := List.mem_map.mp ht
    exact (hp p hp').2.1)
  have hlen : ∀ {γ : Type} (ts : List (Tensor γ)) (rest : List Nat), (∀ t ∈ ts, t.HasRows (t.shape.headD 0) rest) →
      ((ts.map (·.data)).flatten).length = (ts.map fun t => t.shape.headD 0).sum * rest.prod := by
    intro γ ts rest hts
    induction ts with
    | nil => simp
    | cons t ts ih =>
      rw [List.map_cons, List.flatten_cons, List.length_append, ih fun u hu => hts u (by simp [hu]), (hts t (by simp)).2,
        List.map_cons, List.sum_cons, Nat.add_mul]
  have hsum : ((ps.map Prod.snd).map fun t => t.shape.headD 0).sum = ((ps.map Prod.fst).map fun t => t.shape.headD 0).sum := by
    rw [List.map_map, List.map_map]
    congr 1
    exact List.map_congr_left fun p hp' => (hp p hp').2.2.symm
  refine ⟨⟨((ps.map Prod.fst).map fun t => t.shape.headD 0).sum :: restX, ((ps.map Prod.fst).map (·.data)).flatten⟩,
    ⟨((ps.map Prod.snd).map fun t => t.shape.headD 0).sum :: restY, ((ps.map Prod.snd).map (·.data)).flatten⟩,
    ((ps.map Prod.fst).map fun t => t.shape.headD 0).sum, ?_, ⟨rfl, ?_⟩, ⟨by rw [hsum], ?_⟩, ?_⟩
  · have e : (ps.map fun p => (XVal.tensor p.1, p.2)) = ((ps.map Prod.fst).map XVal.tensor).zip (ps.map Prod.snd) := by
      rw [List.map_map, List.zip_map']
      rfl
    rw [e, concatenateBatches_tensors _ _ (by simp) (by simpa using hps), hcatY, hcatX]
    rfl
  · exact hlen _ _ (by
      intro t ht
      obtain ⟨p, hp', rfl⟩ := List.mem_map.mp ht
      exact (hp p hp').1)
  · rw [← hsum]
    exact hlen _ _ (by
      intro t ht
      obtain ⟨p, hp', rfl⟩ := List.mem_map.mp ht
      exact (hp p hp').2.1)
  · rw [hrowsX, hrowsY, List.flatMap_map, List.flatMap_map, zip_flatMap_rows _ _ _ (by
      intro p hp'
      rw [(hp p hp').1.length, (hp p hp').2.1.length, (hp p hp').2.2]), List.flatMap_map]
    rfl

/-- C78: the concatenated data do not depend on the partition into mini-batches. -/
theorem concatenateBatches_partition (data data' : List (XVal α × Tensor β)) (hne : data ≠ []) (hne' : data' ≠ [])
    (restX restY : List Nat) (h : ∀ b ∈ data, IsBatch restX restY b) (h' : ∀ b ∈ data', IsBatch restX restY b)
    (heq : data.flatMap batchPairs = data'.flatMap batchPairs) (key : Option String) :
    concatenateBatches data key = concatenateBatches data' key := by
  obtain ⟨X, y, n, e, hX, hy, hp⟩ := concatenateBatches_pairs data hne restX restY h key
  obtain ⟨X', y', n', e', hX', hy', hp'⟩ := concatenateBatches_pairs data' hne' restX restY h' key
  rw [e, e']
  have hz : X.firstRows.zip y.firstRows = X'.firstRows.zip y'.firstRows := by rw [hp, hp', heq]
  have hn : n = n' := by
    have := congrArg List.length hz
    simpa [List.length_zip, hX.length, hy.length, hX'.length, hy'.length] using this
  subst hn
  have e1 : X.firstRows = X'.firstRows := by
    have := congrArg (List.map Prod.fst) hz
    rwa [List.map_fst_zip (by rw [hX.length, hy.length]), List.map_fst_zip (by rw [hX'.length, hy'.length])] at this
  have e2 : y.firstRows = y'.firstRows := by
    have := congrArg (List.map Prod.snd) hz
    rwa [List.map_snd_zip (by rw [hX.length, hy.length]), List.map_snd_zip (by rw [hX'.length, hy'.length])] at this
  have eX : X = X' := by
    have := hX.flatten.symm.trans ((congrArg List.flatten e1).trans hX'.flatten)
    have hs := hX.1.trans hX'.1.symm
    cases X; cases X'
    simp_all
  have ey : y = y' := by
    have := hy.flatten.symm.trans ((congrArg List.flatten e2).trans hy'.flatten)
    have hs := hy.1.trans hy'.1.symm
    cases y; cases y'
    simp_all
  rw [eX, ey]

/-- C78: empty data. -/
theorem concatenateBatches_empty (key : Option String) : concatenateBatches ([] : List (XVal α × Tensor β)) key = .error .valueError :=
  rfl

/-- C78: dict-like inputs without `input_key` are refused with `ValueError` if the labels can be concatenated. -/
theorem concatenateBatches_no_key (d : Dict (Tensor α)) (y₀ : Tensor β) (rest : List (XVal α × Tensor β)) {y : Tensor β}
    (hy : Tensor.cat0 (((XVal.mapping d, y₀) :: rest).map Prod.snd) = .ok y) :
    concatenateBatches ((.mapping d, y₀) :: rest) none = .error .valueError := by
  unfold concatenateBatches
  simp only [hy, bind, Except.bind]

/-- C78: for dict-like inputs with `input_key`, the result is the result for the tensors at that key; all other entries are
dropped. -/
theorem concatenateBatches_key (key : String) (ds : List (Dict (Tensor α))) (ys : List (Tensor β)) (hl : ds.length = ys.length)
    (ts : List (Tensor α)) (hk : ds.map (fun d => Dict.get d key) = ts.map some) (X : Tensor α) (y : Tensor β)
    (h : concatenateBatches ((ts.map XVal.tensor).zip ys) none = .ok (.tensor X, y)) :
    concatenateBatches ((ds.map XVal.mapping).zip ys) (some key) = .ok (.mapping [(key, X)], y) := by
  have hl' : ts.length = ds.length := by simpa using (congrArg List.length hk).symm
  by_cases hne : ts = []
  · subst hne
    simp [concatenateBatches] at h
  have hne' : ds ≠ [] := by
    rintro rfl
    exact hne (List.length_eq_zero_iff.mp hl')
  rw [concatenateBatches_tensors _ _ (hl'.trans hl) hne] at h
  rw [concatenateBatches_mappings _ _ hl hne', catKey_mappings key ds ts hk]
  cases hy : Tensor.cat0 ys with
  | error e => rw [hy] at h; simp [bind, Except.bind] at h
  | ok y' =>
    cases hX : Tensor.cat0 ts with
    | error e => rw [hy, hX] at h; simp [bind, Except.bind] at h
    | ok X' =>
      rw [hy, hX] at h
      simp only [bind, Except.bind, Except.ok.injEq, Prod.mk.injEq, XVal.tensor.injEq] at h ⊢
      rw [h.1, h.2]
      exact ⟨rfl, rfl⟩

/-- C78: a missing key raises `KeyError`. -/
theorem concatenateBatches_missing (key : String) (d : Dict (Tensor α)) (hd : Dict.get d key = none) (y₀ : Tensor β)
    (rest : List (XVal α × Tensor β)) {y : Tensor β} (hy : Tensor.cat0 (((XVal.mapping d, y₀) :: rest).map Prod.snd) = .ok y) :
    concatenateBatches ((.mapping d, y₀) :: rest) (some key) = .error .keyError := by
  unfold concatenateBatches
  simp only [hy, bind, Except.bind]
  simp only [catKey, List.map_cons, pyMapM, hd, bind, Except.bind]

/-- C78: a dict-like input after a tensor raises `TypeError`. -/
theorem concatenateBatches_mixed (t : Tensor α) (y₀ : Tensor β) (rest : List (XVal α × Tensor β)) {d : Dict (Tensor α)}
    (hd : XVal.mapping d ∈ rest.map Prod.fst) (key : Option String) {y : Tensor β}
    (hy : Tensor.cat0 (((XVal.tensor t, y₀) :: rest).map Prod.snd) = .ok y) :
    concatenateBatches ((.tensor t, y₀) :: rest) key = .error .typeError := by
  have h : ∀ X : List (XVal α), XVal.mapping d ∈ X → catInputs X = .error .typeError := by
    intro X hX
    unfold catInputs
    suffices hs : pyMapM (fun x => match x with
        | XVal.tensor t => Except.ok t
        | XVal.mapping _ => .error .typeError) X = (.error .typeError : Py (List (Tensor α))) from
      congrArg (fun r : Py (List (Tensor α)) => r.bind Tensor.cat0) hs
    induction X with
    | nil => simp at hX
    | cons x X ih =>
      cases x with
      | mapping _ => simp [pyMapM]
      | tensor t => simp [pyMapM, ih (by simpa using hX)]
  unfold concatenateBatches
  simp only [hy, bind, Except.bind]
  rw [h _ (by simp only [List.map_cons, List.mem_cons]; exact .inr hd)]

/-! ## C79 -/

/-- C79: `report_nonclose` returns without exception iff the shapes agree and all entries are close; otherwise it raises
`ValueError`. -/
theorem reportNonclose_iff (rtol atol : ℝ) (equalNan : Bool) (a b : Tensor NpFloat) (ha : a.WF) (hb : b.WF) :
    ((reportNonclose rtol atol equalNan a b).2 = .ok () ↔
      a.shape = b.shape ∧ ∀ i (h : i < a.data.length) (h' : i < b.data.length), (a.data[i]).IsClose rtol atol equalNan b.data[i]) ∧
    ((reportNonclose rtol atol equalNan a b).2 = .ok () ∨ (reportNonclose rtol atol equalNan a b).2 = .error .valueError) := by
  unfold reportNonclose
  by_cases hs : a.shape = b.shape
  · have hl : a.data.length = b.data.length := by
      unfold Tensor.WF at ha hb
      rw [ha, hb, hs]
    have hz : (∀ p ∈ a.data.zip b.data, p.1.IsClose rtol atol equalNan p.2) ↔
        ∀ i (h : i < a.data.length) (h' : i < b.data.length), (a.data[i]).IsClose rtol atol equalNan b.data[i] := by
      constructor
      · intro h i h1 h2
        exact h (a.data[i], b.data[i]) (List.mem_iff_getElem.mpr ⟨i, by simp [h1, h2], by simp⟩)
      · intro h p hp
        obtain ⟨i, hi, rfl⟩ := List.mem_iff_getElem.mp hp
        have hi' : i < a.data.length ∧ i < b.data.length := by simpa using hi
        simpa using h i hi'.1 hi'.2
    simp only [hs, ne_eq, not_true_eq_false, if_false, true_and]
    rw [← hz]
    split <;> simp_all
  · simp [hs]

open Classical in
/-- C79: the pairs that are printed are exactly the pairs of entries that are not close, and there is one if the arrays of equal shape do
not match. -/
theorem reportNonclose_printed (rtol atol : ℝ) (equalNan : Bool) (a b : Tensor NpFloat) (hs : a.shape = b.shape) :
    (∀ p, p ∈ (reportNonclose rtol atol equalNan a b).1 ↔ p ∈ a.data.zip b.data ∧ ¬ p.1.IsClose rtol atol equalNan p.2) ∧
    ((reportNonclose rtol atol equalNan a b).2 = .error .valueError → (reportNonclose rtol atol equalNan a b).1 ≠ []) := by
  unfold reportNonclose
  simp only [hs, ne_eq, not_true_eq_false, if_false]
  split
  · rename_i h
    refine ⟨fun p => ?_, by simp⟩
    simp only [List.not_mem_nil, false_iff, not_and, not_not]
    exact h p
  · rename_i h
    refine ⟨fun p => by simp, fun _ he => h fun p hp => ?_⟩
    by_contra hc
    have : p ∈ (a.data.zip b.data).filter fun p => decide (¬ p.1.IsClose rtol atol equalNan p.2) := by simp [hp, hc]
    simp only at he
    rw [he] at this
    simp at this

/-- C79: with non-negative tolerances every array without NaN matches itself. -/
theorem reportNonclose_self (rtol atol : ℝ) (hr : 0 ≤ rtol) (ha : 0 ≤ atol) (equalNan : Bool) (a : Tensor NpFloat) (hw : a.WF)
    (hnan : NpFloat.nan ∉ a.data ∨ equalNan = true) : (reportNonclose rtol atol equalNan a a).2 = .ok () := by
  rw [(reportNonclose_iff rtol atol equalNan a a hw hw).1]
  refine ⟨rfl, fun i h _ => ?_⟩
  have hm : a.data[i] ∈ a.data := List.getElem_mem h
  generalize a.data[i] = x at hm
  cases x with
  | fin x => simp [NpFloat.IsClose]; positivity
  | pinf => trivial
  | ninf => trivial
  | nan =>
    rcases hnan with h | h
    · exact absurd hm h
    · exact h

/-- C79: for arrays of finite numbers, the comparison succeeds iff `|a_i - b_i| ≤ atol + rtol |b_i|` for all entries. -/
theorem reportNonclose_finite (rtol atol : ℝ) (equalNan : Bool) (sh : List Nat) (x y : List ℝ) (hx : x.length = sh.prod)
    (hy : y.length = sh.prod) :
    (reportNonclose rtol atol equalNan ⟨sh, x.map .fin⟩ ⟨sh, y.map .fin⟩).2 = .ok () ↔
      ∀ i (h : i < x.length) (h' : i < y.length), |x[i] - y[i]| ≤ atol + rtol * |y[i]| := by
  rw [(reportNonclose_iff rtol atol equalNan _ _ (by simp [Tensor.WF, hx]) (by simp [Tensor.WF, hy])).1]
  simp [NpFloat.IsClose]

/-- C79: a finite number, an infinity, or NaN never match an entry of another kind. -/
theorem reportNonclose_kinds (rtol atol : ℝ) (equalNan : Bool) (a b : Tensor NpFloat) (ha : a.WF) (hb : b.WF)
    (h : (reportNonclose rtol atol equalNan a b).2 = .ok ()) (i : Nat) (hi : i < a.data.length) (hi' : i < b.data.length) :
    ((∃ x, a.data[i] = .fin x) ↔ ∃ y, b.data[i] = .fin y) ∧ (a.data[i] = .pinf ↔ b.data[i] = .pinf) ∧
      (a.data[i] = .ninf ↔ b.data[i] = .ninf) ∧ (a.data[i] = .nan ↔ b.data[i] = .nan) := by
  have hc := ((reportNonclose_iff rtol atol equalNan a b ha hb).1.mp h).2 i hi hi'
  generalize a.data[i] = u at hc ⊢
  generalize b.data[i] = v at hc ⊢
  cases u <;> cases v <;> simp_all [NpFloat.IsClose]

/-- C79: the order of the arrays matters. -/
theorem reportNonclose_asymmetric : ∃ a b : Tensor NpFloat, a.WF ∧ b.WF ∧
    (reportNonclose (1 / 2) 0 false a b).2 = .ok () ∧ (reportNonclose (1 / 2) 0 false b a).2 = .error .valueError := by
  refine ⟨⟨[1], [.fin 1]⟩, ⟨[1], [.fin 2]⟩, by simp [Tensor.WF], by simp [Tensor.WF], ?_, ?_⟩
  · simp [reportNonclose, NpFloat.IsClose]; norm_num
  · simp [reportNonclose, NpFloat.IsClose]; norm_num

/-! ## Examples -/

example : concatenateBatches (α := Nat) (β := Nat) [(.tensor ⟨[2, 2], [1, 2, 3, 4]⟩, ⟨[2], [0, 1]⟩), (.tensor ⟨[1, 2], [5, 6]⟩, ⟨[1], [1]⟩)] none =
    .ok (.tensor ⟨[3, 2], [1, 2, 3, 4, 5, 6]⟩, ⟨[3], [0, 1, 1]⟩) := by
  simp [concatenateBatches, catInputs, pyMapM, Tensor.cat0, bind, Except.bind]

example : IsBatch (α := Nat) (β := Nat) [2] [] (.tensor ⟨[2, 2], [1, 2, 3, 4]⟩, ⟨[2], [0, 1]⟩) :=
  ⟨⟨_, 2, rfl, ⟨rfl, rfl⟩, ⟨rfl, rfl⟩⟩⟩

example : batchPairs (α := Nat) (β := Nat) (.tensor ⟨[2, 2], [1, 2, 3, 4]⟩, ⟨[2], [0, 1]⟩) = [([1, 2], [0]), ([3, 4], [1])] := rfl

/-- The entry "mask" is lost. -/
example : concatenateBatches (α := Nat) (β := Nat) [(.mapping [("x", ⟨[1], [1]⟩), ("mask", ⟨[1], [0]⟩)], ⟨[1], [7]⟩)] (some "x") =
    .ok (.mapping [("x", ⟨[1], [1]⟩)], ⟨[1], [7]⟩) := by
  simp [concatenateBatches, catKey, pyMapM, Tensor.cat0, bind, Except.bind, Dict.get, List.lookup]

example : (reportNonclose 0 0 false ⟨[2], [.fin 1, .nan]⟩ ⟨[2], [.fin 1, .nan]⟩).2 = .error .valueError := by
  simp [reportNonclose, NpFloat.IsClose]

end Curvlinops
