import Verif.Spec.Dense
import Mathlib.Tactic.Ring
import Mathlib.Data.List.Dedup

/-!
# Layout lemmas for tensors and `__matmul__`
-/

namespace Curvlinops

variable {α : Type _}

theorem flat_index_lt {M K r k : Nat} (hr : r < M) (hk : k < K) : r * K + k < M * K := by
  calc r * K + k < r * K + K := by omega
    _ = (r + 1) * K := by ring
    _ ≤ M * K := Nat.mul_le_mul_right K hr

theorem pyMapM_ok_of_forall {β γ : Type _} (f : β → Py γ) (g : β → γ) :
    ∀ (l : List β), (∀ a ∈ l, f a = .ok (g a)) → pyMapM f l = .ok (l.map g)
  | [], _ => rfl
  | a :: as, h => by
    rw [pyMapM, h a (by simp)]
    simp only [pyMapM_ok_of_forall f g as (fun b hb => h b (by simp [hb])), List.map_cons]

namespace Tensor

theorem chunks_length : ∀ (ns : List Nat) (x : List α), (chunks ns x).length = ns.length
  | [], _ => rfl
  | n :: ns, x => by simp [chunks, chunks_length ns]

theorem chunks_flatten : ∀ (ns : List Nat) (x : List α), ns.sum = x.length →
    (chunks ns x).flatten = x
  | [], x, h => by
    have : x = [] := by
      rw [← List.length_eq_zero_iff]; simpa using h.symm
    simp [chunks, this]
  | n :: ns, x, h => by
    have hx : ns.sum = (x.drop n).length := by
      rw [List.length_drop]; simp at h; omega
    simp [chunks, chunks_flatten ns _ hx]

theorem chunks_lengths : ∀ (ns : List Nat) (x : List α), ns.sum = x.length →
    (chunks ns x).map List.length = ns
  | [], x, h => by simp [chunks]
  | n :: ns, x, h => by
    have hx : ns.sum = (x.drop n).length := by
      rw [List.length_drop]; simp at h; omega
    simp only [chunks, List.map_cons, chunks_lengths ns _ hx, List.length_take]
    simp at h
    congr 1
    omega

end Tensor

theorem flatData_cons (t : Tensor α) (ts : List (Tensor α)) :
    flatData (t :: ts) = t.data ++ flatData ts := by simp [flatData]

theorem flatData_append (ts us : List (Tensor α)) :
    flatData (ts ++ us) = flatData ts ++ flatData us := by simp [flatData]

/-- Number of entries of a tensor list. -/
theorem flatData_length (ts : List (Tensor α)) (h : ∀ t ∈ ts, t.WF) :
    (flatData ts).length = (ts.map fun t => t.shape.prod).sum := by
  induction ts with
  | nil => rfl
  | cons t ts ih =>
    rw [flatData_cons, List.length_append, ih (fun u hu => h u (by simp [hu]))]
    rw [h t (by simp)]
    simp

theorem sum_map_prod_append (shapes : List (List Nat)) (K : Nat) :
    ((shapes.map (· ++ [K])).map List.prod).sum = (shapes.map List.prod).sum * K := by
  induction shapes with
  | nil => simp
  | cons s ss ih => simp only [List.map_cons, List.sum_cons, ih, List.prod_append]; simp; ring

theorem HasShapes.flatData_length {ts : List (Tensor α)} {shapes : List (List Nat)} {K : Nat}
    (h : HasShapes ts shapes K) : (flatData ts).length = (shapes.map List.prod).sum * K := by
  rw [Curvlinops.flatData_length ts h.2, ← sum_map_prod_append, ← h.1, List.map_map]
  rfl

theorem HasShapes.length {ts : List (Tensor α)} {shapes : List (List Nat)} {K : Nat}
    (h : HasShapes ts shapes K) : ts.length = shapes.length := by
  simpa using congrArg List.length h.1

theorem hasShapes_nil {K : Nat} : HasShapes ([] : List (Tensor α)) [] K := by simp [HasShapes]

theorem hasShapes_cons {t : Tensor α} {ts : List (Tensor α)} {s : List Nat} {ss : List (List Nat)}
    {K : Nat} :
    HasShapes (t :: ts) (s :: ss) K ↔ (t.shape = s ++ [K] ∧ t.WF) ∧ HasShapes ts ss K := by
  simp only [HasShapes, List.map_cons, List.cons.injEq, List.mem_cons, forall_eq_or_imp]
  tauto

/-- Cutting a flat list and reshaping every piece gives a tensor list with the same entries. -/
theorem split_reshape (shapes : List (List Nat)) (K : Nat) :
    ∀ (x : List α), x.length = (shapes.map List.prod).sum * K →
      ∃ Xs : List (Tensor α),
        (((shapes.map List.prod).zip (Tensor.chunks ((shapes.map List.prod).map (· * K)) x)).zip
          shapes).map (fun p => (⟨p.2 ++ [K], p.1.2⟩ : Tensor α)) = Xs ∧
        HasShapes Xs shapes K ∧ flatData Xs = x := by
  induction shapes with
  | nil =>
    intro x hx
    have : x = [] := by
      rw [← List.length_eq_zero_iff]; simpa using hx
    exact ⟨[], by simp, hasShapes_nil, by simp [flatData, this]⟩
  | cons s ss ih =>
    intro x hx
    simp only [List.map_cons, List.sum_cons] at hx
    have hx' : (x.drop (s.prod * K)).length = (ss.map List.prod).sum * K := by
      rw [List.length_drop, hx]; rw [Nat.add_mul]; omega
    obtain ⟨Xs, h1, h2, h3⟩ := ih _ hx'
    refine ⟨⟨s ++ [K], x.take (s.prod * K)⟩ :: Xs, ?_, ?_, ?_⟩
    · simp only [List.map_cons, Tensor.chunks, List.zip_cons_cons, List.cons.injEq, true_and]
      exact h1
    · rw [hasShapes_cons]
      refine ⟨⟨rfl, ?_⟩, h2⟩
      simp only [Tensor.WF, List.prod_append, List.length_take, List.prod_cons, List.prod_nil, mul_one]
      rw [Nat.add_mul] at hx
      omega
    · rw [flatData_cons, h3]; exact List.take_append_drop _ _

/-- The flat format: splitting and reshaping succeeds and keeps the entries. -/
theorem preTensor_spec (A : LinOp α) (X : Tensor α) (rest : List Nat) (K : Nat)
    (hshape : X.shape = A.ncols :: rest) (hrest : rest = [] ∧ K = 1 ∨ rest = [K]) (hwf : X.WF) :
    ∃ Xs, A.preTensor X = .ok (Xs, rest.isEmpty, K) ∧ HasShapes Xs A.inShape K ∧
      flatData Xs = X.data := by
  have hprod : rest.prod = K := by rcases hrest with ⟨rfl, rfl⟩ | rfl <;> simp
  have hlen : X.data.length = (A.inShape.map List.prod).sum * K := by
    rw [hwf, hshape, List.prod_cons, hprod]; rfl
  obtain ⟨Xs, h1, h2, h3⟩ := split_reshape A.inShape K X.data hlen
  refine ⟨Xs, ?_, h2, h3⟩
  have hnd : ¬ X.ndim > 2 := by
    rw [Tensor.ndim, hshape]; rcases hrest with ⟨rfl, _⟩ | rfl <;> simp
  have hv : (X.ndim == 1) = rest.isEmpty := by
    rw [Tensor.ndim, hshape]; rcases hrest with ⟨rfl, _⟩ | rfl <;> simp
  have hk : (if rest.isEmpty then 1 else rest.headD 0) = K := by
    rcases hrest with ⟨rfl, rfl⟩ | rfl <;> simp
  unfold LinOp.preTensor
  rw [if_neg hnd]
  simp only [hshape, ne_eq, not_true_eq_false, if_false, hv, hk]
  have hsplit : X.split0 A.inFlat = .ok (((A.inShape.map List.prod).zip
      (Tensor.chunks ((A.inShape.map List.prod).map (· * K)) X.data)).map
        fun p => ⟨p.1 :: rest, p.2⟩) := by
    unfold Tensor.split0
    simp only [hshape, LinOp.ncols, LinOp.inFlat, if_true, hprod]
  rw [hsplit]
  simp only
  rw [pyMapM_ok_of_forall _ (fun p : Tensor α × List Nat => ⟨p.2 ++ [K], p.1.data⟩)]
  · rw [← h1]
    simp only [Except.ok.injEq, Prod.mk.injEq, and_true]
    rw [List.zip_map_left, List.map_map]
    rfl
  · intro p hp
    unfold Tensor.reshape
    rw [if_pos]
    rw [List.zip_map_left, List.mem_map] at hp
    obtain ⟨⟨⟨n, d⟩, s⟩, hq, rfl⟩ := hp
    simp only [Prod.map_apply, id_eq, List.prod_append, List.prod_cons, List.prod_nil, mul_one, hprod]
    have : n = s.prod := by
      rw [List.mem_iff_getElem] at hq
      obtain ⟨i, hi, he⟩ := hq
      simp only [List.getElem_zip, List.getElem_map, Prod.mk.injEq] at he
      rw [← he.1.1, ← he.2]
    rw [this]

theorem all_zip_eq {β γ : Type _} [BEq γ] [LawfulBEq γ] (f : β → γ) :
    ∀ (l : List β) (m : List γ), l.length = m.length →
      ((l.zip m).all (fun p => f p.1 == p.2) = true ↔ l.map f = m)
  | [], [], _ => by simp
  | a :: l, b :: m, h => by
    simp only [List.zip_cons_cons, List.all_cons, Bool.and_eq_true, beq_iff_eq, List.map_cons,
      List.cons.injEq]
    rw [all_zip_eq f l m (by simpa using h)]

theorem dedup_const {β : Type _} [DecidableEq β] {l : List β} {k : β} (hne : l ≠ [])
    (h : ∀ a ∈ l, a = k) : l.dedup = [k] := by
  have h1 : ∀ a ∈ l.dedup, a = k := fun a ha => h a (List.mem_dedup.mp ha)
  have h2 : l.dedup.Nodup := List.nodup_dedup l
  have h3 : l.dedup ≠ [] := by simpa using hne
  rcases hl : l.dedup with _ | ⟨a, _ | ⟨b, t⟩⟩
  · exact absurd hl h3
  · rw [hl] at h1; rw [h1 a (by simp)]
  · rw [hl] at h1 h2
    have ha := h1 a (by simp); have hb := h1 b (by simp)
    simp [ha, hb] at h2

theorem of_dedup_singleton {β : Type _} [DecidableEq β] {l : List β} {k : β}
    (h : l.dedup = [k]) : ∀ a ∈ l, a = k := by
  intro a ha
  have : a ∈ l.dedup := List.mem_dedup.mpr ha
  rw [h] at this
  simpa using this

theorem hasShapes_unsqueeze {X : List (Tensor α)} {shapes : List (List Nat)}
    (h : X.map (·.shape) = shapes) (hwf : ∀ t ∈ X, t.WF) :
    HasShapes (X.map Tensor.unsqueezeLast) shapes 1 := by
  constructor
  · rw [← h, List.map_map, List.map_map]; rfl
  · intro t ht
    obtain ⟨u, hu, rfl⟩ := List.mem_map.mp ht
    simp only [Tensor.WF, Tensor.unsqueezeLast, List.prod_append, List.prod_cons, List.prod_nil, mul_one]
    exact hwf u hu

theorem flatData_unsqueeze (X : List (Tensor α)) :
    flatData (X.map Tensor.unsqueezeLast) = flatData X := by
  simp only [flatData, List.map_map]; rfl

theorem preList_vec (A : LinOp α) (X : List (Tensor α)) (h : X.map (·.shape) = A.inShape) :
    A.preList X = .ok (X.map Tensor.unsqueezeLast, true, 1) := by
  have hl : X.length = A.inShape.length := by simpa using congrArg List.length h
  unfold LinOp.preList
  rw [if_neg (by simpa using hl), if_pos ((all_zip_eq (fun t : Tensor α => t.shape) X _ hl).mpr h)]

theorem matCond_iff (X : List (Tensor α)) (shapes : List (List Nat)) (hl : X.length = shapes.length) :
    (X.zip shapes).all (fun p => p.1.ndim == p.2.length + 1 && p.1.shape.dropLast == p.2) = true ↔
      ∃ ks : List Nat, X.map (·.shape) = List.zipWith (fun s k => s ++ [k]) shapes ks ∧
        ks.length = shapes.length := by
  induction X generalizing shapes with
  | nil =>
    rcases shapes with _ | ⟨s, ss⟩
    · simp
    · simp at hl
  | cons t ts ih =>
    rcases shapes with _ | ⟨s, ss⟩
    · simp at hl
    simp only [List.length_cons, Nat.add_right_cancel_iff] at hl
    simp only [List.zip_cons_cons, List.all_cons, Bool.and_eq_true, ih ss hl, beq_iff_eq]
    constructor
    · rintro ⟨⟨h1, h2⟩, ks, h3, h4⟩
      have hne : t.shape ≠ [] := by
        intro h; rw [Tensor.ndim, h] at h1; simp at h1
      refine ⟨t.shape.getLast hne :: ks, ?_, by simp [h4]⟩
      simp only [List.map_cons, List.zipWith_cons_cons, List.cons.injEq, h3, and_true]
      rw [← h2, List.dropLast_append_getLast]
    · rintro ⟨_ | ⟨k, ks⟩, h3, h4⟩
      · simp at h4
      · simp only [List.map_cons, List.zipWith_cons_cons, List.cons.injEq] at h3
        refine ⟨⟨?_, ?_⟩, ks, h3.2, by simpa using h4⟩
        · rw [Tensor.ndim, h3.1]; simp
        · rw [h3.1]; simp

theorem preList_mat (A : LinOp α) (X : List (Tensor α)) (K : Nat) (hne : A.inShape ≠ [])
    (h : X.map (·.shape) = A.inShape.map (· ++ [K])) :
    A.preList X = .ok (X, false, K) := by
  have hl : X.length = A.inShape.length := by simpa using congrArg List.length h
  have hnv : ¬ (X.zip A.inShape).all (fun p => p.1.shape == p.2) = true := by
    intro hv
    rw [all_zip_eq (fun t : Tensor α => t.shape) X _ hl, h] at hv
    rcases hs : A.inShape with _ | ⟨s, ss⟩
    · exact hne hs
    · rw [hs] at hv
      simp at hv
  have hm : (X.zip A.inShape).all
      (fun p => p.1.ndim == p.2.length + 1 && p.1.shape.dropLast == p.2) = true := by
    rw [matCond_iff X _ hl]
    refine ⟨List.replicate A.inShape.length K, ?_, by simp⟩
    rw [h]
    clear h hl hnv hne
    induction A.inShape with
    | nil => simp
    | cons s ss ih => simp [List.replicate_succ, ih]
  have hd : (X.map fun x => x.shape.getLastD 0).dedup = [K] := by
    apply dedup_const
    · intro h0
      apply hne
      have : X = [] := by simpa using h0
      rw [this] at hl
      exact List.length_eq_zero_iff.mp hl.symm
    · intro a ha
      obtain ⟨t, ht, rfl⟩ := List.mem_map.mp ha
      have : t.shape ∈ X.map (·.shape) := List.mem_map.mpr ⟨t, ht, rfl⟩
      rw [h] at this
      obtain ⟨s, _, hs⟩ := List.mem_map.mp this
      rw [← hs]; simp
  unfold LinOp.preList
  rw [if_neg (by simpa using hl), if_neg hnv, if_pos hm, hd]

/-- Post-processing succeeds on tensors of the right shapes. -/
theorem post_list (A : LinOp α) (AX : List (Tensor α)) (K : Nat) (isVec : Bool)
    (h : HasShapes AX A.outShape K) :
    A.post AX true isVec K = .ok (.list (if isVec then AX.map Tensor.squeezeLast else AX)) := by
  unfold LinOp.post
  rw [if_neg (by simpa using h.length), if_neg]
  · simp
  · rw [List.any_eq_true]
    rintro ⟨⟨t, s⟩, hp, hne⟩
    have hh := h.1
    rw [List.mem_iff_getElem] at hp
    obtain ⟨i, hi, he⟩ := hp
    simp only [List.getElem_zip, Prod.mk.injEq] at he
    have hi1 : i < AX.length := by simp at hi; omega
    have hi2 : i < A.outShape.length := by simp at hi; omega
    have := List.getElem_of_eq hh (i := i) (by simpa using hi1)
    simp only [List.getElem_map, he.1, he.2] at this
    simp [this] at hne

theorem post_tensor (A : LinOp α) (AX : List (Tensor α)) (K : Nat) (isVec : Bool)
    (hne : A.outShape ≠ []) (h : HasShapes AX A.outShape K) :
    A.post AX false isVec K = .ok (.tensor (if isVec then
      Tensor.squeezeLast ⟨[A.nrows, K], flatData AX⟩ else ⟨[A.nrows, K], flatData AX⟩)) := by
  unfold LinOp.post
  rw [if_neg (by simpa using h.length), if_neg]
  · simp only [Bool.false_eq_true, if_false]
    rw [pyMapM_ok_of_forall _ (fun p : Tensor α × Nat => ⟨[p.2, K], p.1.data⟩)]
    · simp only
      have hcat : Tensor.cat0 ((AX.zip A.outFlat).map fun p => (⟨[p.2, K], p.1.data⟩ : Tensor α)) =
          .ok ⟨[A.nrows, K], flatData AX⟩ := by
        have hl : AX.length = A.outFlat.length := by rw [h.length]; simp [LinOp.outFlat]
        have key : ∀ (l : List (Tensor α)) (m : List Nat), l.length = m.length →
            (((l.zip m).map fun p => (⟨[p.2, K], p.1.data⟩ : Tensor α)).map
              fun u => u.shape.headD 0).sum = m.sum ∧
            (((l.zip m).map fun p => (⟨[p.2, K], p.1.data⟩ : Tensor α)).map (·.data)).flatten =
              flatData l := by
          intro l
          induction l with
          | nil => intro m hm; rcases m with _ | _ <;> simp_all [flatData]
          | cons t l ih =>
            intro m hm
            rcases m with _ | ⟨n, m⟩
            · simp at hm
            · obtain ⟨i1, i2⟩ := ih m (by simpa using hm)
              rw [flatData_cons, ← i2]
              simp only [List.zip_cons_cons, List.map_cons, List.sum_cons, List.flatten_cons, and_true]
              rw [i1]; rfl
        obtain ⟨k1, k2⟩ := key AX A.outFlat hl
        rcases hA : AX with _ | ⟨t, ts⟩
        · rw [hA] at hl
          exact absurd (List.map_eq_nil_iff.mp (List.length_eq_zero_iff.mp hl.symm)) hne
        rcases hO : A.outFlat with _ | ⟨n, ns⟩
        · rw [hA, hO] at hl; simp at hl
        rw [hA, hO] at k1 k2
        simp only [List.zip_cons_cons, List.map_cons] at k1 k2 ⊢
        unfold Tensor.cat0
        simp only [List.map_cons]
        rw [k1, k2, if_pos]
        · simp only [LinOp.nrows, hO]
        · rw [List.all_eq_true]
          intro u hu
          simp only [List.mem_cons, List.mem_map] at hu
          rcases hu with rfl | ⟨p, _, rfl⟩ <;> simp
      rw [hcat]
    · intro p hp
      unfold Tensor.reshape
      rw [if_pos]
      rw [LinOp.outFlat, List.zip_map_right, List.mem_map] at hp
      obtain ⟨⟨t, s⟩, hp, rfl⟩ := hp
      have hh := h.1
      rw [List.mem_iff_getElem] at hp
      obtain ⟨i, hi, he⟩ := hp
      simp only [List.getElem_zip, Prod.mk.injEq] at he
      have hi1 : i < AX.length := by simp at hi; omega
      have := List.getElem_of_eq hh (i := i) (by simpa using hi1)
      simp only [List.getElem_map, he.1, he.2] at this
      simp [this]
  · rw [List.any_eq_true]
    rintro ⟨⟨t, s⟩, hp, hne⟩
    have hh := h.1
    rw [List.mem_iff_getElem] at hp
    obtain ⟨i, hi, he⟩ := hp
    simp only [List.getElem_zip, Prod.mk.injEq] at he
    have hi1 : i < AX.length := by simp at hi; omega
    have := List.getElem_of_eq hh (i := i) (by simpa using hi1)
    simp only [List.getElem_map, he.1, he.2] at this
    simp [this] at hne

theorem squeeze_list {AX : List (Tensor α)} {shapes : List (List Nat)} (h : HasShapes AX shapes 1) :
    (AX.map Tensor.squeezeLast).map (·.shape) = shapes ∧
      (∀ t ∈ AX.map Tensor.squeezeLast, t.WF) ∧
      flatData (AX.map Tensor.squeezeLast) = flatData AX := by
  induction AX generalizing shapes with
  | nil =>
    have hs : shapes = [] := List.length_eq_zero_iff.mp h.length.symm
    simp [hs, flatData]
  | cons t ts ih =>
    rcases shapes with _ | ⟨s, ss⟩
    · have := h.length; simp at this
    rw [hasShapes_cons] at h
    obtain ⟨⟨h1, h2⟩, h3⟩ := h
    obtain ⟨i1, i2, i3⟩ := ih h3
    have hs : t.squeezeLast = ⟨s, t.data⟩ := by
      unfold Tensor.squeezeLast
      rw [h1]; simp
    refine ⟨?_, ?_, ?_⟩
    · simp only [List.map_cons, hs]; rw [i1]
    · intro u hu
      rw [List.map_cons, List.mem_cons] at hu
      rcases hu with rfl | hu
      · rw [hs]; rw [Tensor.WF, h1] at h2; simpa [Tensor.WF] using h2
      · exact i2 u hu
    · rw [List.map_cons, flatData_cons, flatData_cons, i3, hs]

end Curvlinops
