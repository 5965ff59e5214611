import Verif.Model.Functorch
import Verif.Props.Jacobian
import Verif.Props.Net

/-!
# Properties of the reference matrices (C72)
-/

namespace Curvlinops

variable {α : Type _}

/-! ## Parameter dictionaries -/

theorem nameOf_eq (named : List (String × Nat)) (hid : (named.map Prod.snd).Nodup) (name : String) (id : Nat) :
    nameOf named id = some name ↔ (name, id) ∈ named := by
  unfold nameOf
  constructor
  · intro h
    obtain ⟨e, he, rfl⟩ := Option.map_eq_some_iff.mp h
    have h1 := List.mem_of_find?_eq_some he
    have h2 := List.find?_some he
    simp only [beq_iff_eq] at h2
    subst h2
    exact List.mem_reverse.mp h1
  · intro h
    cases hf : named.reverse.find? (fun e => e.2 == id) with
    | none =>
      have := List.find?_eq_none.mp hf (name, id) (List.mem_reverse.mpr h)
      simp at this
    | some e =>
      have h1 := List.mem_reverse.mp (List.mem_of_find?_eq_some hf)
      have h2 := List.find?_some hf
      simp only [beq_iff_eq] at h2
      have : e = (name, id) := List.inj_on_of_nodup_map hid h1 h h2
      rw [this]
      rfl

theorem set_append {β : Type _} (d : Dict β) (k : String) (v : β) (h : k ∉ d.map Prod.fst) : d.set k v = d ++ [(k, v)] := by
  induction d with
  | nil => rfl
  | cons e d ih =>
    obtain ⟨k', v'⟩ := e
    simp only [List.map_cons, List.mem_cons, not_or] at h
    rw [Dict.set, if_neg (Ne.symm h.1), ih h.2]
    rfl

/-- For distinct parameters of the model the dictionary has them in the order of `params`, not in that of the model. -/
theorem makeParamsDict_eq (named : List (String × Nat)) (hid : (named.map Prod.snd).Nodup)
    (hname : (named.map Prod.fst).Nodup) :
    ∀ (ps : List (Nat × PRef)) (names : List String) (d : Dict PRef), (ps.map Prod.fst).Nodup →
      names.length = ps.length → (∀ e ∈ names.zip ps, (e.1, e.2.1) ∈ named) →
      (∀ k ∈ d.map Prod.fst, ∃ id, (k, id) ∈ named ∧ id ∉ ps.map Prod.fst) →
      makeParamsDict named ps d = .ok (d ++ names.zip (ps.map Prod.snd))
  | [], [], d, _, _, _, _ => by simp [makeParamsDict]
  | [], _ :: _, _, _, h, _, _ => by simp at h
  | _ :: _, [], _, _, h, _, _ => by simp at h
  | (id, p) :: ps, n :: names, d, hnd, hlen, hin, hd => by
    have hn : (n, id) ∈ named := hin (n, (id, p)) (by simp)
    rw [makeParamsDict, (nameOf_eq named hid n id).mpr hn]
    simp only
    simp only [List.map_cons, List.nodup_cons] at hnd
    have hnot : n ∉ d.map Prod.fst := by
      intro hk
      obtain ⟨id', h1, h2⟩ := hd n hk
      have : ((n, id') : String × Nat) = (n, id) := List.inj_on_of_nodup_map hname h1 hn rfl
      simp only [Prod.mk.injEq, true_and] at this
      simp [this] at h2
    rw [set_append d n p hnot, makeParamsDict_eq named hid hname ps names _ hnd.2 (by simpa using hlen)
      (fun e he => hin e (by simp [he])) ?_]
    · simp
    · intro k hk
      simp only [List.map_append, List.map_cons, List.map_nil, List.mem_append, List.mem_singleton] at hk
      rcases hk with hk | rfl
      · obtain ⟨id', h1, h2⟩ := hd k hk
        exact ⟨id', h1, fun h => h2 (by simp [h])⟩
      · exact ⟨id, hn, hnd.1⟩

/-! ## Layout -/

theorem flatMap_drop_take (f : Nat → List α) (c n i : Nat) (hi : i < n) (hf : ∀ i, (f i).length = c) :
    (((List.range n).flatMap f).drop (i * c)).take c = f i := by
  induction n generalizing i f with
  | zero => simp at hi
  | succ n ih =>
    rw [List.range_succ_eq_map, List.flatMap_cons, List.flatMap_map]
    cases i with
    | zero =>
      simp only [Nat.zero_mul, List.drop_zero]
      rw [← hf 0, List.take_left]
    | succ i =>
      have : (i + 1) * c = (f 0).length + i * c := by rw [hf 0]; ring
      rw [this, List.drop_append, List.drop_eq_nil_of_le (by omega)]
      simp only [Nat.add_sub_cancel_left, List.nil_append]
      exact ih (fun i => f (i + 1)) i (by omega) fun i => hf (i + 1)

theorem prefs_flatMap {β : Type _} (g : Nat → List β) :
    ∀ (o : Nat) (ss : List (List Nat)), ((prefs o ss).flatMap fun q => (List.range q.shape.prod).flatMap fun j => g (q.off + j)) =
      (List.range (total ss)).flatMap fun j => g (o + j)
  | _, [] => by simp [prefs, total]
  | o, s :: ss => by
    have htot : total (s :: ss) = s.prod + total ss := by simp [total]
    rw [prefs, List.flatMap_cons, prefs_flatMap g _ ss, htot, List.range_add, List.flatMap_append, List.flatMap_map]
    simp only [Nat.add_assoc]

theorem prefs_flatMap_map {β : Type _} (g : Nat → β) (o : Nat) (ss : List (List Nat)) :
    ((prefs o ss).flatMap fun q => (List.range q.shape.prod).map fun j => g (q.off + j)) =
      (List.range (total ss)).map fun j => g (o + j) := by
  have h := prefs_flatMap (fun j => [g j]) o ss
  simpa [← List.map_eq_flatMap] using h

theorem prefs_shapes (o : Nat) (ss : List (List Nat)) : (prefs o ss).map PRef.shape = ss := by
  induction ss generalizing o with
  | nil => rfl
  | cons s ss ih => simp [prefs, ih]

theorem pyMapM_map {β γ δ : Type _} (f : γ → Py δ) (g : β → γ) (l : List β) :
    pyMapM f (l.map g) = pyMapM (fun b => f (g b)) l := by
  induction l with
  | nil => rfl
  | cons b l ih => simp only [List.map_cons, pyMapM, ih]

theorem get_map {β γ : Type _} (f : String × β → γ) : ∀ (d : Dict β), (d.map Prod.fst).Nodup → ∀ e ∈ d,
    Dict.get (d.map fun e => (e.1, f e)) e.1 = some (f e)
  | [], _, e, he => by simp at he
  | e' :: d, hnd, e, he => by
    simp only [List.map_cons, List.nodup_cons] at hnd
    rcases List.mem_cons.mp he with rfl | he
    · simp [Dict.get]
    · have hne : e.1 ≠ e'.1 := fun h => hnd.1 (h ▸ List.mem_map.mpr ⟨e, he, rfl⟩)
      have := get_map f d hnd.2 e he
      simp only [Dict.get, List.map_cons] at this ⊢
      rw [List.lookup, beq_false_of_ne hne]
      exact this

/-- Concatenation along the last dimension. -/
theorem catLast_spec {β : Type _} (out : List Nat) (l : List β) (hne : l ≠ []) (m : β → Nat) (f : β → Nat → List α)
    (hf : ∀ b i, (f b i).length = m b) :
    Tensor.catLast (l.map fun b => ⟨out ++ [m b], (List.range out.prod).flatMap (f b)⟩) =
      .ok ⟨out ++ [(l.map m).sum], (List.range out.prod).flatMap fun i => l.flatMap fun b => f b i⟩ := by
  cases l with
  | nil => exact absurd rfl hne
  | cons b l =>
    simp only [Tensor.catLast, List.map_cons]
    rw [if_neg (by simp), if_pos (by simp)]
    simp only [List.dropLast_concat, Except.ok.injEq, Tensor.mk.injEq]
    refine ⟨by simp [Function.comp_def], ?_⟩
    refine List.flatMap_congr fun i hi => ?_
    rw [List.mem_range] at hi
    rw [← List.map_cons (f := fun b => (⟨out ++ [m b], (List.range out.prod).flatMap (f b)⟩ : Tensor α)), List.flatMap_map]
    refine List.flatMap_congr fun b _ => ?_
    simpa using flatMap_drop_take (f b) (m b) out.prod i hi (hf b)

/-- Concatenation along the first dimension. -/
theorem cat0_map {β : Type _} (m : Nat) (l : List β) (hne : l ≠ []) (n : β → Nat) (f : β → List α) :
    Tensor.cat0 (l.map fun b => ⟨[n b, m], f b⟩) = .ok ⟨[(l.map n).sum, m], l.flatMap f⟩ := by
  cases l with
  | nil => exact absurd rfl hne
  | cons b l =>
    simp only [Tensor.cat0, List.map_cons]
    rw [if_pos (by simp)]
    simp [Function.comp_def, List.flatMap_def]

/-- `blocks_to_matrix` concatenates the flattened blocks in the order of the dictionary. -/
theorem blocksToMatrix_eq (H : Nat → Nat → α) (ps : Dict PRef) (hnd : (ps.map Prod.fst).Nodup) (hne : ps ≠ [])
    (hpos : ∀ e ∈ ps, e.2.shape.prod ≠ 0) :
    blocksToMatrix (hessianDict H ps) = .ok ⟨[(ps.map fun e => e.2.shape.prod).sum, (ps.map fun e => e.2.shape.prod).sum],
      ps.flatMap fun e => (List.range e.2.shape.prod).flatMap fun i => ps.flatMap fun e' =>
        (List.range e'.2.shape.prod).map fun j => H (e.2.off + i) (e'.2.off + j)⟩ := by
  have hkeys : (hessianDict H ps).keys = ps.map Prod.fst := by simp [hessianDict, Dict.keys, Function.comp_def]
  unfold blocksToMatrix
  rw [hkeys]
  unfold hessianDict
  rw [pyMapM_map, pyMapM_ok_of_forall _ (fun e : String × PRef => (⟨[e.2.shape.prod, (ps.map fun e => e.2.shape.prod).sum],
    (List.range e.2.shape.prod).flatMap fun i => ps.flatMap fun e' =>
        (List.range e'.2.shape.prod).map fun j => H (e.2.off + i) (e'.2.off + j)⟩ : Tensor α))]
  · simp only [bind, Except.bind]
    exact cat0_map _ ps hne (fun e => e.2.shape.prod) _
  · intro e he
    simp only
    rw [get_map _ ps hnd e he]
    have hsq : Nat.sqrt (e.2.shape ++ e.2.shape).prod = e.2.shape.prod := by
      rw [List.prod_append]
      exact Nat.sqrt_eq _
    simp only [hsq]
    rw [pyMapM_map, pyMapM_ok_of_forall _ (fun e' : String × PRef => (⟨[e.2.shape.prod, e'.2.shape.prod],
      (List.range e.2.shape.prod).flatMap fun i => (List.range e'.2.shape.prod).map fun j =>
        H (e.2.off + i) (e'.2.off + j)⟩ : Tensor α))]
    · simp only [bind, Except.bind]
      have := catLast_spec [e.2.shape.prod] ps hne (fun e' => e'.2.shape.prod)
        (fun e' i => (List.range e'.2.shape.prod).map fun j => H (e.2.off + i) (e'.2.off + j)) (by simp)
      simpa using this
    · intro e' he'
      rw [get_map _ ps hnd e' he']
      simp only [Tensor.reshapeRows, List.prod_append, Nat.mul_mod_right, ne_eq, not_true_eq_false, or_false,
        if_neg (hpos e he)]
      rw [Nat.mul_div_cancel_left _ (Nat.pos_of_ne_zero (hpos e he))]

/-- The list of parameters that is given: distinct parameters of the model, with their shapes. `named` are the model's
parameters with their data pointers. -/
structure ModelParams (named : List (String × Nat)) (ids : List Nat) (shapes : List (List Nat)) : Prop where
  pointers : (named.map Prod.snd).Nodup
  names : (named.map Prod.fst).Nodup
  distinct : ids.Nodup
  length : ids.length = shapes.length
  mem : ∀ id ∈ ids, id ∈ named.map Prod.snd

theorem ModelParams.dict {named : List (String × Nat)} {ids : List Nat} {shapes : List (List Nat)}
    (h : ModelParams named ids shapes) : ∃ names : List String, names.Nodup ∧ names.length = shapes.length ∧
      makeParamsDict named (ids.zip (prefs 0 shapes)) [] = .ok (names.zip (prefs 0 shapes)) := by
  have hex : ∀ id ∈ ids, ∃ n, (n, id) ∈ named := by
    intro id hid
    obtain ⟨⟨n, id'⟩, hm, rfl⟩ := List.mem_map.mp (h.mem id hid)
    exact ⟨n, hm⟩
  have hf : ∃ f : Nat → String, ∀ id ∈ ids, (f id, id) ∈ named := by
    classical
    refine ⟨fun id => if hid : id ∈ ids then (hex id hid).choose else "", fun id hid => ?_⟩
    simp only [hid, dif_pos]
    exact (hex id hid).choose_spec
  obtain ⟨f, hf⟩ := hf
  have hlen : ids.length = (prefs 0 shapes).length := by rw [prefs_length, h.length]
  have hfst : (ids.zip (prefs 0 shapes)).map Prod.fst = ids := List.map_fst_zip (by omega)
  have hsnd : (ids.zip (prefs 0 shapes)).map Prod.snd = prefs 0 shapes := List.map_snd_zip (by omega)
  refine ⟨ids.map f, ?_, by rw [List.length_map, h.length], ?_⟩
  · refine List.Nodup.map_on ?_ h.distinct
    intro a ha b hb hab
    have h1 := hf a ha
    have h2 := hf b hb
    rw [hab] at h1
    have : ((f b, a) : String × Nat) = (f b, b) := List.inj_on_of_nodup_map h.names h1 h2 rfl
    simpa using this
  · rw [makeParamsDict_eq named h.pointers h.names _ (ids.map f) [] (by rw [hfst]; exact h.distinct)
      (by simp [hlen]) ?_ (by simp), hsnd]
    · rfl
    · intro e he
      obtain ⟨i, hi, rfl⟩ := List.mem_iff_getElem.mp he
      simp only [List.getElem_zip, List.getElem_map]
      exact hf _ (List.getElem_mem _)

/-- The tensor of shape `(M, N)` with the entries of a matrix. -/
def rowMajor (M N : Nat) (A : Nat → Nat → α) : Tensor α := ⟨[M, N], (List.range M).flatMap fun r => (List.range N).map (A r)⟩

theorem rowMajor_entry [Zero α] (M N : Nat) (A : Nat → Nat → α) (r c : Nat) (hr : r < M) (hc : c < N) :
    (rowMajor M N A).data.getD (r * N + c) 0 = A r c := by
  have h := flatMap_drop_take (fun r => (List.range N).map (A r)) N M r hr (by simp)
  have h2 := congrArg (fun l => l.getD c 0) h
  simp only [List.getD_eq_getElem?_getD, List.getElem?_take, hc, if_true, List.getElem?_drop] at h2
  simp only [rowMajor, List.getD_eq_getElem?_getD]
  rw [h2]
  simp [hc]

theorem zip_flatMap {β γ δ : Type _} (l : List β) (m : List γ) (h : l.length = m.length) (f : γ → List δ) :
    ((l.zip m).flatMap fun e => f e.2) = m.flatMap f := by
  conv_rhs => rw [← List.map_snd_zip (l₁ := l) (l₂ := m) (by omega), List.flatMap_map]

theorem zip_prefs_sum (names : List String) (shapes : List (List Nat)) (h : names.length = shapes.length) (o : Nat) :
    ((names.zip (prefs o shapes)).map fun e => e.2.shape.prod).sum = total shapes := by
  have : ((names.zip (prefs o shapes)).map fun e => e.2.shape.prod) = shapes.map List.prod := by
    conv_rhs => rw [← prefs_shapes o shapes, List.map_map, ← List.map_snd_zip (l₁ := names) (l₂ := prefs o shapes)
      (by rw [prefs_length]; omega), List.map_map]
    rfl
  rw [this, total]

theorem zip_prefs_ne_nil (names : List String) (shapes : List (List Nat)) (h : names.length = shapes.length)
    (hne : shapes ≠ []) (o : Nat) : names.zip (prefs o shapes) ≠ [] := by
  intro h0
  have := congrArg List.length h0
  rw [List.length_zip, prefs_length, h] at this
  simp at this
  exact hne this

theorem zip_prefs_shape (names : List String) (shapes : List (List Nat)) (o : Nat) (e : String × PRef)
    (he : e ∈ names.zip (prefs o shapes)) : e.2.shape ∈ shapes := by
  rw [← prefs_shapes o shapes]
  exact List.mem_map.mpr ⟨e.2, (List.of_mem_zip he).2, rfl⟩

/-- C72: `functorch_hessian` and `functorch_ggn` return the matrix of second derivatives with respect to the flattened
and concatenated `params`, in the order in which they are given. -/
theorem functorchMatrix_eq {named : List (String × Nat)} {ids : List Nat} {shapes : List (List Nat)}
    (h : ModelParams named ids shapes) (hne : shapes ≠ []) (hpos : ∀ s ∈ shapes, s.prod ≠ 0) (H : Nat → Nat → α) :
    functorchMatrix named ids shapes H = .ok (rowMajor (total shapes) (total shapes) H) := by
  obtain ⟨names, hnd, hlen, hd⟩ := h.dict
  have hl : names.length = (prefs 0 shapes).length := by rw [prefs_length, hlen]
  unfold functorchMatrix
  rw [hd]
  simp only [bind, Except.bind]
  rw [blocksToMatrix_eq H _ (by rw [List.map_fst_zip (by omega)]; exact hnd) (zip_prefs_ne_nil names shapes hlen hne 0)
    fun e he => hpos _ (zip_prefs_shape names shapes 0 e he), zip_prefs_sum names shapes hlen 0,
    zip_flatMap names _ hl fun q => (List.range q.shape.prod).flatMap fun i => (names.zip (prefs 0 shapes)).flatMap fun e' =>
        (List.range e'.2.shape.prod).map fun j => H (q.off + i) (e'.2.off + j)]
  simp only [fun a => zip_flatMap names _ hl fun q => (List.range q.shape.prod).map fun j => H a (q.off + j)]
  rw [prefs_flatMap fun a => (prefs 0 shapes).flatMap fun q => (List.range q.shape.prod).map fun j => H a (q.off + j)]
  simp only [prefs_flatMap_map, Nat.zero_add]
  rfl

/-- Flattening the dimensions of the parameter. -/
theorem flattenDims_last (out s : List Nat) (hs : s ≠ []) (d : List α) (start : Int)
    (hstart : start = -(s.length : Int) ∨ start = out.length) :
    Tensor.flattenDims start (-1) ⟨out ++ s, d⟩ = .ok ⟨out ++ [s.prod], d⟩ := by
  have hl : 0 < s.length := List.length_pos_of_ne_nil hs
  have h1 : Tensor.normDim (out ++ s).length start = .ok out.length := by
    unfold Tensor.normDim
    rw [List.length_append]
    simp only [show out.length + s.length ≠ 0 by omega, if_false]
    rw [if_neg (by rcases hstart with h | h <;> omega)]
    rcases hstart with h | h
    · rw [if_pos (by omega)]
      congr 1
      omega
    · rw [if_neg (by omega)]
      congr 1
      omega
  have h2 : Tensor.normDim (out ++ s).length (-1) = .ok (out.length + s.length - 1) := by
    unfold Tensor.normDim
    rw [List.length_append]
    simp only [show out.length + s.length ≠ 0 by omega, if_false]
    rw [if_neg (by omega), if_pos (by omega)]
    congr 1
    omega
  unfold Tensor.flattenDims
  simp only [h1, h2, bind, Except.bind]
  rw [if_neg (by omega)]
  have e : out.length + s.length - 1 + 1 = (out ++ s).length := by rw [List.length_append]; omega
  rw [e, List.take_length, List.drop_length]
  simp

/-- C72: `functorch_jacobian` returns the matrix of derivatives of the flattened output with respect to the flattened and
concatenated `params`, if all of them have at least one dimension. -/
theorem functorchJacobian_eq {named : List (String × Nat)} {ids : List Nat} {shapes : List (List Nat)}
    (h : ModelParams named ids shapes) (hne : shapes ≠ []) (hdim : ∀ s ∈ shapes, s ≠ []) (out : List Nat) (hout : out ≠ [])
    (J : Nat → Nat → α) :
    functorchJacobian named ids shapes out J = .ok (rowMajor out.prod (total shapes) J) := by
  obtain ⟨names, hnd, hlen, hd⟩ := h.dict
  have hl : names.length = (prefs 0 shapes).length := by rw [prefs_length, hlen]
  unfold functorchJacobian
  rw [hd]
  simp only [bind, Except.bind]
  rw [pyMapM_ok_of_forall _ (fun e : String × PRef => (⟨out ++ [e.2.shape.prod], (List.range out.prod).flatMap fun r =>
    (List.range e.2.shape.prod).map fun i => J r (e.2.off + i)⟩ : Tensor α)) _ fun e he =>
      flattenDims_last out _ (hdim _ (zip_prefs_shape names shapes 0 e he)) _ _ (Or.inl rfl)]
  simp only
  rw [catLast_spec out _ (zip_prefs_ne_nil names shapes hlen hne 0) (fun e : String × PRef => e.2.shape.prod)
    (fun e r => (List.range e.2.shape.prod).map fun i => J r (e.2.off + i)) (by simp)]
  simp only [fun r => zip_flatMap names _ hl fun q => (List.range q.shape.prod).map fun j => J r (q.off + j),
    zip_prefs_sum names shapes hlen 0, prefs_flatMap_map, Nat.zero_add]
  have hlo : 0 < out.length := List.length_pos_of_ne_nil hout
  have h1 : Tensor.normDim (out ++ [total shapes]).length 0 = .ok 0 := by
    unfold Tensor.normDim
    simp
  have h2 : Tensor.normDim (out ++ [total shapes]).length (-2) = .ok (out.length - 1) := by
    unfold Tensor.normDim
    rw [List.length_append]
    simp only [List.length_singleton, show out.length + 1 ≠ 0 by omega, if_false]
    rw [if_neg (by omega), if_pos (by omega)]
    congr 1
    omega
  unfold Tensor.flattenDims
  simp only [h1, h2, bind, Except.bind]
  rw [if_neg (by omega), show out.length - 1 + 1 = out.length by omega]
  simp [rowMajor]

/-! ## Empirical Fisher -/

theorem rowMajor_map {β : Type _} (M N : Nat) (A : Nat → Nat → α) (f : α → β) :
    (rowMajor M N A).data.map f = (rowMajor M N fun r c => f (A r c)).data := by
  simp [rowMajor, List.map_flatMap, Function.comp_def]

theorem rowMajor_congr (M N : Nat) (A A' : Nat → Nat → α) (h : ∀ r < M, ∀ c < N, A r c = A' r c) :
    rowMajor M N A = rowMajor M N A' := by
  unfold rowMajor
  congr 1
  refine List.flatMap_congr fun r hr => List.map_congr_left fun c hc => ?_
  exact h r (List.mem_range.mp hr) c (List.mem_range.mp hc)

theorem sumGroups_rowMajor (n G P : Nat) (J : Nat → Nat → ℝ) :
    sumGroups n G P (rowMajor (n * G) P J) = .ok (rowMajor n P fun i p => ∑ g ∈ Finset.range G, J (i * G + g) p) := by
  unfold sumGroups
  rw [if_neg (by simp [rowMajor])]
  congr 1
  refine rowMajor_congr n P _ _ fun i hi p hp => Finset.sum_congr rfl fun g hg => ?_
  rw [Finset.mem_range] at hg
  refine rowMajor_entry (n * G) P J (i * G + g) p ?_ hp
  calc i * G + g < i * G + G := by omega
    _ = (i + 1) * G := by ring
    _ ≤ n * G := Nat.mul_le_mul_right _ hi

theorem gramOver_rowMajor (n P : Nat) (norm : ℝ) (A : Nat → Nat → ℝ) :
    gramOver n P norm (rowMajor n P A) = rowMajor P P fun r c => (∑ i ∈ Finset.range n, A i r * A i c) / norm := by
  refine rowMajor_congr P P _ _ fun r hr c hc => ?_
  congr 1
  refine Finset.sum_congr rfl fun i hi => ?_
  rw [Finset.mem_range] at hi
  rw [rowMajor_entry n P A i r hi hr, rowMajor_entry n P A i c hi hc]

/-- `functorch_empirical_fisher` in terms of the gradients of elementary losses, `n` groups of `G`. -/
theorem functorchEFTensor_gram {named : List (String × Nat)} {ids : List Nat} {shapes : List (List Nat)}
    (h : ModelParams named ids shapes) (hne : shapes ≠ []) (hdim : ∀ s ∈ shapes, s ≠ []) (k : LossKind) (mean : Bool)
    (y : List Nat) (n G : Nat) (hn : n ≠ 0) (hk : n = if k = .ce then y.prod else y.dropLast.prod) (hy : y.prod = n * G)
    (J : Nat → Nat → ℝ) :
    functorchEFTensor named ids shapes k mean y J = .ok (rowMajor (total shapes) (total shapes) fun r c =>
      (∑ i ∈ Finset.range n,
        ((∑ g ∈ Finset.range G, J (i * G + g) r) / if k ≠ .ce ∧ mean then Real.sqrt G else 1) *
        ((∑ g ∈ Finset.range G, J (i * G + g) c) / if k ≠ .ce ∧ mean then Real.sqrt G else 1)) /
          (if mean then (n : ℝ) else 1)) := by
  obtain ⟨names, hnd, hlen, hd⟩ := h.dict
  have hl : names.length = (prefs 0 shapes).length := by rw [prefs_length, hlen]
  unfold functorchEFTensor
  rw [hd]
  simp only [bind, Except.bind]
  rw [pyMapM_ok_of_forall _ (fun e : String × PRef => (⟨[y.prod] ++ [e.2.shape.prod], (List.range y.prod).flatMap fun r =>
    (List.range e.2.shape.prod).map fun i => J r (e.2.off + i)⟩ : Tensor ℝ)) _ fun e he =>
      flattenDims_last [y.prod] _ (hdim _ (zip_prefs_shape names shapes 0 e he)) _ 1 (Or.inr rfl)]
  simp only
  have hcat := catLast_spec [y.prod] _ (zip_prefs_ne_nil names shapes hlen hne 0) (fun e : String × PRef => e.2.shape.prod)
    (fun e r => (List.range e.2.shape.prod).map fun i => J r (e.2.off + i)) (by simp)
  simp only [fun r => zip_flatMap names _ hl fun q => (List.range q.shape.prod).map fun j => J r (q.off + j),
    zip_prefs_sum names shapes hlen 0, prefs_flatMap_map, Nat.zero_add, List.prod_cons, List.prod_nil, Nat.mul_one] at hcat
  rw [hcat]
  simp only
  have hnum : numLosses k y = n := by rw [hk]; cases k <;> rfl
  rw [hnum, if_neg hn]
  have hG : y.prod / n = G := by rw [hy, Nat.mul_div_cancel_left _ (Nat.pos_of_ne_zero hn)]
  have hrow : (⟨[y.prod] ++ [total shapes], (List.range y.prod).flatMap fun i => (List.range (total shapes)).map fun j => J i j⟩ :
    Tensor ℝ) = rowMajor (n * G) (total shapes) J := by rw [hy]; rfl
  rw [hG, hrow, show (shapes.map List.prod).sum = total shapes from rfl, sumGroups_rowMajor]
  simp only
  congr 1
  by_cases hm : k ≠ .ce ∧ mean
  · simp only [if_pos hm]
    rw [rowMajor_map]
    exact gramOver_rowMajor n (total shapes) _ _
  · simp only [if_neg hm, div_one]
    exact gramOver_rowMajor n (total shapes) _ _

theorem elementaryGrad_group {C : Nat} (k : LossKind) (ts : List (Term k C)) (i : Nat) (hi : i < ts.length) (p : Nat) :
    ∑ g ∈ Finset.range (if k = .ce then 1 else C), elementaryGrad k ts (i * (if k = .ce then 1 else C) + g) p =
      refGroupGrad k ts[i] p := by
  have hgi : ∀ g, g < C → (i * C + g) / C = i ∧ (i * C + g) % C = g := by
    intro g hg
    have hC : 0 < C := by omega
    constructor
    · rw [Nat.mul_comm, Nat.mul_add_div hC, Nat.div_eq_of_lt hg, Nat.add_zero]
    · rw [Nat.mul_comm, Nat.mul_add_mod, Nat.mod_eq_of_lt hg]
  cases k with
  | ce => simp [elementaryGrad, refGroupGrad, hi]
  | mse =>
    simp only [reduceCtorEq, if_false]
    rw [Finset.sum_range]
    simp only [refGroupGrad]
    refine Finset.sum_congr rfl fun g _ => ?_
    obtain ⟨h1, h2⟩ := hgi g g.2
    simp only [elementaryGrad, h1, h2, List.getElem?_eq_getElem hi, g.2, dif_pos]
  | bce =>
    simp only [reduceCtorEq, if_false]
    rw [Finset.sum_range]
    simp only [refGroupGrad]
    refine Finset.sum_congr rfl fun g _ => ?_
    obtain ⟨h1, h2⟩ := hgi g g.2
    simp only [elementaryGrad, h1, h2, List.getElem?_eq_getElem hi, g.2, dif_pos]

/-- C72: `functorch_empirical_fisher` returns the empirical Fisher, for labels with as many entries as there are
elementary losses. -/
theorem functorchEFTensor_eq {named : List (String × Nat)} {ids : List Nat} {shapes : List (List Nat)}
    (h : ModelParams named ids shapes) (hne : shapes ≠ []) (hdim : ∀ s ∈ shapes, s ≠ []) {k : LossKind} {C : Nat}
    (mean : Bool) (y : List Nat) (ts : List (Term k C)) (hts : ts ≠ [])
    (hy : if k = .ce then y.prod = ts.length else ∃ ds, y = ds ++ [C] ∧ ds.prod = ts.length) :
    functorchEFTensor named ids shapes k mean y (elementaryGrad k ts) =
      .ok (rowMajor (total shapes) (total shapes) (functorchEF mean ts)) := by
  have hn : ts.length ≠ 0 := by simpa using hts
  have h1 : ts.length = if k = .ce then y.prod else y.dropLast.prod := by
    by_cases hk : k = .ce
    · rw [if_pos hk] at hy ⊢
      exact hy.symm
    · rw [if_neg hk] at hy ⊢
      obtain ⟨ds, rfl, hds⟩ := hy
      rw [List.dropLast_concat, hds]
  have h2 : y.prod = ts.length * if k = .ce then 1 else C := by
    by_cases hk : k = .ce
    · rw [if_pos hk] at hy ⊢
      rw [hy, Nat.mul_one]
    · rw [if_neg hk] at hy ⊢
      obtain ⟨ds, rfl, hds⟩ := hy
      simp [hds]
  rw [functorchEFTensor_gram h hne hdim k mean y ts.length _ hn h1 h2]
  congr 1
  refine rowMajor_congr _ _ _ _ fun r _ c _ => ?_
  unfold functorchEF
  simp only [List.map_map, Function.comp_def]
  congr 1
  rw [← Fin.sum_univ_fun_getElem, Finset.sum_range]
  refine Finset.sum_congr rfl fun i _ => ?_
  rw [elementaryGrad_group k ts i i.2 r, elementaryGrad_group k ts i i.2 c]
  by_cases hk : k = .ce
  · simp [hk]
  · by_cases hm : mean = true
    · simp [hk, hm]
    · simp [hm]

/-! ## Operators and reference matrices -/

/-- The entry of a two-dimensional tensor with `N` columns. -/
def Tensor.entry [Zero α] (t : Tensor α) (N : Nat) : Mat α := fun r c => t.data.getD (r * N + c) 0

theorem representsAt_rowMajor [NonUnitalNonAssocSemiring α] (op : LinOp α) (A : Mat α) (K : Nat) (h : RepresentsAt op A K)
    (M N : Nat) (hM : op.nrows = M) (hN : op.ncols = N) : RepresentsAt op ((rowMajor M N A).entry N) K := by
  intro Xs hX
  obtain ⟨Ys, h1, h2, h3, h4⟩ := h Xs hX
  refine ⟨Ys, h1, h2, h3, fun r hr k hk => ?_⟩
  rw [h4 r hr k hk]
  refine Finset.sum_congr rfl fun c hc => ?_
  rw [Finset.mem_range] at hc
  rw [Tensor.entry, rowMajor_entry M N A r c (hM ▸ hr) (hN ▸ hc)]

/-- C72: products with `HessianLinearOperator` are products with the matrix that `functorch_hessian` returns. -/
theorem hessian_eq_functorch {P O : Nat} {named : List (String × Nat)} {ids : List Nat} {shapes : List (List Nat)}
    (h : ModelParams named ids shapes) (hpos : ∀ s ∈ shapes, s.prod ≠ 0) (hP : total shapes = P) (hshapes : shapes ≠ [])
    (red : Reduction) (hred : red = .mean ∨ red = .sum) (θ : Fin P → ℝ) (batches : List (List (NetDatum P O)))
    (hne : ∀ b ∈ batches, b ≠ [])
    (hdiff : ∀ d ∈ batches.flatten, ContDiffAt ℝ 2 (fun θ => d.loss (d.f θ)) θ) :
    ∃ T, functorchMatrix named ids shapes (functorchHessian red θ batches.flatten) = .ok T ∧ T.shape = [P, P] ∧
      Represents (curvatureOp shapes red (inferNData List.length batches none) List.length
        (netHessianBatch shapes [(shapes.length : Int)] red θ) batches) (T.entry P) := by
  obtain ⟨h1, h2⟩ := netHessianOp_represents shapes hP hshapes red hred θ batches hne hdiff
  refine ⟨_, functorchMatrix_eq h hshapes hpos _, by rw [hP]; rfl, fun K => ?_⟩
  rw [h2, hP]
  exact representsAt_rowMajor _ _ K (h1 K) P P hP hP

/-- C72: products with `GGNLinearOperator` are products with the matrix that `functorch_ggn` returns. -/
theorem ggn_eq_functorch {P O : Nat} {named : List (String × Nat)} {ids : List Nat} {shapes : List (List Nat)}
    (h : ModelParams named ids shapes) (hpos : ∀ s ∈ shapes, s.prod ≠ 0) (hP : total shapes = P) (hshapes : shapes ≠ [])
    (red : Reduction) (hred : red = .mean ∨ red = .sum) (θ : Fin P → ℝ) (batches : List (List (NetDatum P O)))
    (hne : ∀ b ∈ batches, b ≠ []) (hf : ∀ d ∈ batches.flatten, DifferentiableAt ℝ d.f θ)
    (hL : ∀ d ∈ batches.flatten, ContDiffAt ℝ 2 d.loss (d.f θ)) :
    ∃ T, functorchMatrix named ids shapes (functorchGGN red θ batches.flatten) = .ok T ∧ T.shape = [P, P] ∧
      Represents (curvatureOp shapes red (inferNData List.length batches none) List.length
        (netGGNBatch shapes red θ) batches) (T.entry P) := by
  refine ⟨_, functorchMatrix_eq h hshapes hpos _, by rw [hP]; rfl, fun K => ?_⟩
  rw [hP]
  exact representsAt_rowMajor _ _ K (ggnOp_eq_functorch shapes hP hshapes red hred θ batches hne hf hL K) P P hP hP

/-- C72: products with `EFLinearOperator` are products with the matrix that `functorch_empirical_fisher` returns, for
labels `y` of all data. -/
theorem ef_eq_functorch {k : LossKind} {C : Nat} {named : List (String × Nat)} {ids : List Nat} {shapes : List (List Nat)}
    (h : ModelParams named ids shapes) (hdim : ∀ s ∈ shapes, s ≠ []) (hshapes : shapes ≠ []) (mean : Bool) (T : Nat)
    (batches : List (List (List (Term k C)))) (hne : ∀ b ∈ batches, b ≠ []) (hT : ∀ b ∈ batches, ∀ d ∈ b, d.length = T)
    (hterms : batches.flatten.flatten ≠ []) (y : List Nat)
    (hy : if k = .ce then y.prod = batches.flatten.flatten.length
      else ∃ ds, y = ds ++ [C] ∧ ds.prod = batches.flatten.flatten.length) :
    ∃ F, functorchEFTensor named ids shapes k mean y (elementaryGrad k batches.flatten.flatten) = .ok F ∧
      F.shape = [total shapes, total shapes] ∧
      Represents (curvatureOp shapes (redOf mean) (inferNData List.length batches none) List.length
        (fun b => efBatch shapes mean b.flatten) batches) (F.entry (total shapes)) :=
  ⟨_, functorchEFTensor_eq h hshapes hdim mean y _ hterms hy, rfl, fun K =>
    representsAt_rowMajor _ _ K (efOp_eq_functorch shapes hshapes mean T batches hne hT K) _ _ rfl rfl⟩

/-- C72: products with `JacobianLinearOperator` are products with the matrix that `functorch_jacobian` returns. -/
theorem jacobian_eq_functorch [NonUnitalNonAssocSemiring α] {named : List (String × Nat)} {ids : List Nat}
    {shapes : List (List Nat)} (h : ModelParams named ids shapes) (hdim : ∀ s ∈ shapes, s ≠ []) (hshapes : shapes ≠ [])
    (S : List Nat) (b : List (Mat α)) (bs : List (List (Mat α))) (K : Nat) (hK : 1 ≤ K) :
    ∃ T, functorchJacobian named ids shapes ((b :: bs).flatten.length :: S) (rowsOf S.prod (b :: bs).flatten) = .ok T ∧
      T.shape = [(b :: bs).flatten.length * S.prod, total shapes] ∧
      RepresentsAt (jacobianOp shapes (b :: bs).flatten.length (jacBatch S b) (bs.map (jacBatch S)))
        (T.entry (total shapes)) K := by
  refine ⟨_, functorchJacobian_eq h hshapes hdim _ (by simp) _, by rw [List.prod_cons]; rfl, ?_⟩
  refine representsAt_rowMajor _ _ K (jacobianOp_rows shapes hshapes S b bs K hK) _ _ ?_ rfl
  simp [LinOp.nrows, LinOp.outFlat, jacobianOp, jacBatch]

/-- C72: `functorch_gradient_and_loss` returns the gradient with the shapes of the parameters, in their order. -/
theorem functorchGradient_eq {named : List (String × Nat)} {ids : List Nat} {shapes : List (List Nat)}
    (h : ModelParams named ids shapes) (g : Nat → α) : ∃ ts, functorchGradient named ids shapes g = .ok ts ∧
      ts.map (·.shape) = shapes ∧ flatData ts = (List.range (total shapes)).map g := by
  obtain ⟨names, hnd, hlen, hd⟩ := h.dict
  have hl : names.length = (prefs 0 shapes).length := by rw [prefs_length, hlen]
  unfold functorchGradient
  rw [hd]
  refine ⟨_, rfl, ?_, ?_⟩
  · rw [List.map_map]
    conv_rhs => rw [← prefs_shapes 0 shapes, ← List.map_snd_zip (l₁ := names) (l₂ := prefs 0 shapes) (by omega),
      List.map_map]
    rfl
  · rw [flatData, List.map_map, ← List.flatMap_def]
    rw [show ((names.zip (prefs 0 shapes)).flatMap ((fun x : Tensor α => x.data) ∘ fun e => ⟨e.2.shape,
      (List.range e.2.shape.prod).map fun i => g (e.2.off + i)⟩)) = _ from
      zip_flatMap names _ hl fun q => (List.range q.shape.prod).map fun j => g (q.off + j), prefs_flatMap_map]
    simp

/-! ## Arguments that are not handled -/

theorem pyMapM_error {β γ : Type _} (f : β → Py γ) (e : PyErr) : ∀ l : List β, (∀ a ∈ l, (∃ c, f a = .ok c) ∨ f a = .error e) →
    (∃ a ∈ l, f a = .error e) → pyMapM f l = .error e
  | [], _, h => by simp at h
  | a :: l, h, hex => by
    rw [pyMapM]
    rcases h a (by simp) with ⟨c, hc⟩ | he
    · rw [hc]
      have : ∃ a ∈ l, f a = .error e := by
        obtain ⟨b, hb, hbe⟩ := hex
        rcases List.mem_cons.mp hb with rfl | hb
        · rw [hc] at hbe; cases hbe
        · exact ⟨b, hb, hbe⟩
      simp only [pyMapM_error f e l (fun b hb => h b (by simp [hb])) this]
    · rw [he]

/-- C72: a tensor that is no parameter of the model raises `KeyError`. -/
theorem makeParamsDict_unknown (named : List (String × Nat)) (ps : List (Nat × PRef)) (d : Dict PRef)
    (h : ∃ e ∈ ps, e.1 ∉ named.map Prod.snd) : makeParamsDict named ps d = .error .keyError := by
  induction ps generalizing d with
  | nil => simp at h
  | cons e ps ih =>
    obtain ⟨id, p⟩ := e
    rw [makeParamsDict]
    cases hn : nameOf named id with
    | none => rfl
    | some name =>
      refine ih _ ?_
      obtain ⟨e, he, hne⟩ := h
      rcases List.mem_cons.mp he with rfl | he
      · exfalso
        obtain ⟨e', he', -⟩ := Option.map_eq_some_iff.mp hn
        have h2 := List.find?_some he'
        simp only [beq_iff_eq] at h2
        exact hne (List.mem_map.mpr ⟨e', List.mem_reverse.mp (List.mem_of_find?_eq_some he'), h2⟩)
      · exact ⟨e, he, hne⟩

/-- C72: a parameter without entries raises `RuntimeError` in `functorch_hessian` and `functorch_ggn`, although the operators
accept it. -/
theorem functorchMatrix_empty {named : List (String × Nat)} {ids : List Nat} {shapes : List (List Nat)}
    (h : ModelParams named ids shapes) (s : List Nat) (hs : s ∈ shapes) (h0 : s.prod = 0) (H : Nat → Nat → α) :
    functorchMatrix named ids shapes H = .error .runtimeError := by
  obtain ⟨names, hnd, hlen, hd⟩ := h.dict
  have hl : names.length = (prefs 0 shapes).length := by rw [prefs_length, hlen]
  unfold functorchMatrix
  rw [hd]
  simp only [bind, Except.bind]
  have hnd' : ((names.zip (prefs 0 shapes)).map Prod.fst).Nodup := by rw [List.map_fst_zip (by omega)]; exact hnd
  have hmem : ∃ e ∈ names.zip (prefs 0 shapes), e.2.shape.prod = 0 := by
    rw [← prefs_shapes 0 shapes, ← List.map_snd_zip (l₁ := names) (l₂ := prefs 0 shapes) (by omega), List.map_map] at hs
    obtain ⟨e, he, rfl⟩ := List.mem_map.mp hs
    exact ⟨e, he, h0⟩
  generalize names.zip (prefs 0 shapes) = ps at hnd' hmem
  have hkeys : (hessianDict H ps).keys = ps.map Prod.fst := by simp [hessianDict, Dict.keys, Function.comp_def]
  unfold blocksToMatrix
  rw [hkeys]
  unfold hessianDict
  rw [pyMapM_map, pyMapM_error _ .runtimeError]
  · rfl
  · intro e he
    simp only
    rw [get_map _ ps hnd' e he]
    have hsq : Nat.sqrt (e.2.shape ++ e.2.shape).prod = e.2.shape.prod := by
      rw [List.prod_append]
      exact Nat.sqrt_eq _
    simp only [hsq]
    rw [pyMapM_map]
    by_cases hz : e.2.shape.prod = 0
    · right
      rw [pyMapM_error _ .runtimeError]
      · rfl
      · intro e' he'
        right
        rw [get_map _ ps hnd' e' he']
        simp [Tensor.reshapeRows, hz]
      · refine ⟨e, he, ?_⟩
        rw [get_map _ ps hnd' e he]
        simp [Tensor.reshapeRows, hz]
    · left
      rw [pyMapM_ok_of_forall _ (fun e' : String × PRef => (⟨[e.2.shape.prod, e'.2.shape.prod],
        (List.range e.2.shape.prod).flatMap fun i => (List.range e'.2.shape.prod).map fun j =>
          H (e.2.off + i) (e'.2.off + j)⟩ : Tensor α))]
      · simp only [bind, Except.bind]
        have := catLast_spec [e.2.shape.prod] ps (List.ne_nil_of_mem he) (fun e' => e'.2.shape.prod)
          (fun e' i => (List.range e'.2.shape.prod).map fun j => H (e.2.off + i) (e'.2.off + j)) (by simp)
        simp only [List.prod_cons, List.prod_nil, Nat.mul_one, List.cons_append, List.nil_append] at this
        exact ⟨_, this⟩
      · intro e' he'
        rw [get_map _ ps hnd' e' he']
        simp only [Tensor.reshapeRows, List.prod_append, Nat.mul_mod_right, ne_eq, not_true_eq_false, or_false,
          if_neg hz]
        rw [Nat.mul_div_cancel_left _ (Nat.pos_of_ne_zero hz)]
  · obtain ⟨e, he, hz⟩ := hmem
    refine ⟨e, he, ?_⟩
    simp only
    rw [get_map _ ps hnd' e he]
    simp only [List.prod_append, hz, Nat.mul_zero, Nat.sqrt_zero]
    rw [pyMapM_map, pyMapM_error _ .runtimeError]
    · rfl
    · intro e' he'
      right
      rw [get_map _ ps hnd' e' he']
      simp [Tensor.reshapeRows]
    · refine ⟨e, he, ?_⟩
      rw [get_map _ ps hnd' e he]
      simp [Tensor.reshapeRows]

/-- C72: a parameter without dimensions raises `IndexError` in `functorch_empirical_fisher`, although `EFLinearOperator`
accepts it. -/
theorem functorchEFTensor_scalar {named : List (String × Nat)} {ids : List Nat} {shapes : List (List Nat)}
    (h : ModelParams named ids shapes) (hs : [] ∈ shapes) (k : LossKind) (mean : Bool) (y : List Nat) (J : Nat → Nat → ℝ) :
    functorchEFTensor named ids shapes k mean y J = .error .indexError := by
  obtain ⟨names, hnd, hlen, hd⟩ := h.dict
  have hl : names.length = (prefs 0 shapes).length := by rw [prefs_length, hlen]
  unfold functorchEFTensor
  rw [hd]
  simp only [bind, Except.bind]
  have hscalar : ∀ d : List ℝ, Tensor.flattenDims 1 (-1) (⟨[y.prod] ++ [], d⟩ : Tensor ℝ) = .error .indexError := fun d => rfl
  rw [pyMapM_error _ .indexError]
  · intro e he
    by_cases h0 : e.2.shape = []
    · right
      rw [h0]
      exact hscalar _
    · left
      exact ⟨_, flattenDims_last [y.prod] _ h0 _ 1 (Or.inr rfl)⟩
  · rw [← prefs_shapes 0 shapes, ← List.map_snd_zip (l₁ := names) (l₂ := prefs 0 shapes) (by omega), List.map_map] at hs
    obtain ⟨e, he, h0⟩ := List.mem_map.mp hs
    refine ⟨e, he, ?_⟩
    simp only [Function.comp_apply] at h0
    rw [h0]
    exact hscalar _

theorem catLast_mismatch (ts : List (Tensor α)) (t u : Tensor α) (ht : t ∈ ts) (hu : u ∈ ts)
    (h : t.shape.dropLast ≠ u.shape.dropLast) : Tensor.catLast ts = .error .runtimeError := by
  cases ts with
  | nil => rfl
  | cons v ts =>
    simp only [Tensor.catLast]
    split
    · rfl
    · rw [if_neg]
      intro hall
      rw [List.all_eq_true] at hall
      have h1 := hall t ht
      have h2 := hall u hu
      simp only [decide_eq_true_eq] at h1 h2
      exact h (h1.2.trans h2.2.symm)

/-- C72: a parameter without dimensions raises an exception in `functorch_jacobian`, although `JacobianLinearOperator` accepts
it: `flatten(start_dim=-p.dim())` flattens also the dimensions of the output. -/
theorem functorchJacobian_scalar {named : List (String × Nat)} {ids : List Nat} {shapes : List (List Nat)}
    (h : ModelParams named ids shapes) (hs : [] ∈ shapes) (out : List Nat) (hout : out ≠ []) (J : Nat → Nat → α) :
    functorchJacobian named ids shapes out J =
      .error (if ∃ s ∈ shapes, s ≠ [] then .runtimeError else .indexError) := by
  obtain ⟨names, hnd, hlen, hd⟩ := h.dict
  have hl : names.length = (prefs 0 shapes).length := by rw [prefs_length, hlen]
  have hex : ∀ s ∈ shapes, ∃ e ∈ names.zip (prefs 0 shapes), e.2.shape = s := by
    intro s hs
    rw [← prefs_shapes 0 shapes, ← List.map_snd_zip (l₁ := names) (l₂ := prefs 0 shapes) (by omega), List.map_map] at hs
    obtain ⟨e, he, h0⟩ := List.mem_map.mp hs
    exact ⟨e, he, h0⟩
  have hlo : 0 < out.length := List.length_pos_of_ne_nil hout
  have hscalar : ∀ d : List α, Tensor.flattenDims 0 (-1) (⟨out ++ [], d⟩ : Tensor α) = .ok ⟨[out.prod], d⟩ := by
    intro d
    have h1 : Tensor.normDim (out ++ []).length 0 = .ok 0 := by
      unfold Tensor.normDim
      simp only [List.append_nil, show out.length ≠ 0 by omega, if_false]
      rw [if_neg (by omega)]
      simp
    have h2 : Tensor.normDim (out ++ []).length (-1) = .ok (out.length - 1) := by
      unfold Tensor.normDim
      simp only [List.append_nil, show out.length ≠ 0 by omega, if_false]
      rw [if_neg (by omega), if_pos (by omega)]
      congr 1
      omega
    unfold Tensor.flattenDims
    simp only [h1, h2, bind, Except.bind]
    rw [if_neg (by omega), show out.length - 1 + 1 = out.length by omega]
    simp
  unfold functorchJacobian
  rw [hd]
  simp only [bind, Except.bind]
  rw [pyMapM_ok_of_forall _ (fun e : String × PRef => (⟨if e.2.shape = [] then [out.prod] else out ++ [e.2.shape.prod],
    (List.range out.prod).flatMap fun r => (List.range e.2.shape.prod).map fun i => J r (e.2.off + i)⟩ : Tensor α))]
  swap
  · intro e he
    by_cases h0 : e.2.shape = []
    · simp only [h0, if_true]
      exact hscalar _
    · simp only [h0, if_false]
      exact flattenDims_last out _ h0 _ _ (Or.inl rfl)
  simp only
  obtain ⟨e₀, he₀, h0⟩ := hex [] hs
  by_cases hall : ∃ s ∈ shapes, s ≠ []
  · rw [if_pos hall]
    obtain ⟨s, hs', hne⟩ := hall
    obtain ⟨e₁, he₁, h1⟩ := hex s hs'
    rw [catLast_mismatch _ _ _ (List.mem_map.mpr ⟨e₀, he₀, rfl⟩) (List.mem_map.mpr ⟨e₁, he₁, rfl⟩)]
    simp only [h0, h1, hne, if_true, if_false, List.dropLast_concat]
    simpa using Ne.symm hout
  · rw [if_neg hall]
    have hz : ∀ e ∈ names.zip (prefs 0 shapes), e.2.shape = [] := by
      intro e he
      by_contra hne
      exact hall ⟨_, zip_prefs_shape names shapes 0 e he, hne⟩
    have hlist : ((names.zip (prefs 0 shapes)).map fun e => (⟨if e.2.shape = [] then [out.prod] else out ++ [e.2.shape.prod],
        (List.range out.prod).flatMap fun r => (List.range e.2.shape.prod).map fun i => J r (e.2.off + i)⟩ : Tensor α)) =
        (names.zip (prefs 0 shapes)).map fun e => ⟨[] ++ [out.prod], (List.range ([] : List Nat).prod).flatMap fun _ =>
          (List.range out.prod).flatMap fun r => (List.range e.2.shape.prod).map fun i => J r (e.2.off + i)⟩ := by
      refine List.map_congr_left fun e he => ?_
      simp [hz e he]
    rw [hlist]
    cases hc : names.zip (prefs 0 shapes) with
    | nil => rw [hc] at he₀; simp at he₀
    | cons e es =>
      simp only [Tensor.catLast, List.map_cons]
      rw [if_neg (by simp), if_pos (by simp)]
      rfl

/-- C72: a repeated parameter appears once in the reference matrix. -/
theorem functorchMatrix_repeated (H : Nat → Nat → Int) :
    functorchMatrix [("w", 7)] [7, 7] [[1], [1]] H = .ok ⟨[1, 1], [H 1 1]⟩ := by
  unfold functorchMatrix
  rw [show makeParamsDict [("w", 7)] ([7, 7].zip (prefs 0 [[1], [1]])) [] = .ok [("w", ⟨1, [1]⟩)] from rfl]
  simp only [bind, Except.bind]
  rw [blocksToMatrix_eq H _ (by simp) (by simp) (by simp)]
  rfl

/-- Non-vacuity: parameters of a model in another order. -/
theorem modelParams_example : ModelParams [("w", 7), ("b", 8), ("c", 9)] [9, 7] [[1], [2, 1]] where
  pointers := by decide
  names := by decide
  distinct := by decide
  length := rfl
  mem := by decide

example (H : Nat → Nat → Int) : functorchMatrix [("w", 7), ("b", 8), ("c", 9)] [9, 7] [[1], [2, 1]] H =
    .ok ⟨[3, 3], [H 0 0, H 0 1, H 0 2, H 1 0, H 1 1, H 1 2, H 2 0, H 2 1, H 2 2]⟩ := by
  rw [functorchMatrix_eq modelParams_example (by decide) (by decide)]
  rfl

example (J : Nat → Nat → Int) : functorchJacobian [("w", 7), ("b", 8), ("c", 9)] [9, 7] [[1], [2, 1]] [2, 1] J =
    .ok ⟨[2, 3], [J 0 0, J 0 1, J 0 2, J 1 0, J 1 1, J 1 2]⟩ := by
  rw [functorchJacobian_eq modelParams_example (by decide) (by decide) _ (by decide)]
  rfl

/-- Two data with two outputs each, and the sum of squared errors: gradients of both outputs are added up. -/
example (ts : List (Term .mse 2)) (hts : ts.length = 2) :
    functorchEFTensor [("w", 7), ("b", 8), ("c", 9)] [9, 7] [[1], [2, 1]] .mse true [2, 2] (elementaryGrad .mse ts) =
      .ok (rowMajor 3 3 (functorchEF true ts)) :=
  functorchEFTensor_eq modelParams_example (by decide) (by decide) true [2, 2] ts (by rintro rfl; simp at hts)
    (by simp only [reduceCtorEq, if_false]; exact ⟨[2], rfl, by simp [hts]⟩)

example : functorchMatrix [("w", 7)] [7] [[0]] (fun _ _ => (0 : Int)) = .error .runtimeError :=
  functorchMatrix_empty ⟨by decide, by decide, by decide, rfl, by decide⟩ [0] (by decide) rfl _

example : functorchJacobian [("w", 7), ("s", 8)] [7, 8] [[2], []] [1, 1] (fun _ _ => (0 : Int)) = .error .runtimeError := by
  rw [functorchJacobian_scalar ⟨by decide, by decide, by decide, rfl, by decide⟩ (by decide) _ (by decide),
    if_pos ⟨[2], by decide, by decide⟩]

end Curvlinops
