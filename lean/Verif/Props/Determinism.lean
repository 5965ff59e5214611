import Verif.Props.Curvature
import Verif.Model.Determinism
import Mathlib.Data.List.Zip
import Mathlib.Tactic.IntervalCases

/-!
# C24 – C27: gradient and loss, determinism check, devices
-/

namespace Curvlinops

variable {α : Type _}

/-! ## C24 -/

/-- Specification: mean or sum of a per-datum quantity. -/
def riskValue [DivisionRing α] {D : Type _} (red : Reduction) (l : D → α) (ds : List D) : α :=
  (if red = .mean then (ds.length : α)⁻¹ else 1) * (ds.map l).sum

theorem addVec_spec [NonAssocSemiring α] {T C : List (Tensor α)} {shapes : List (List Nat)} (c : α)
    (hT : HasVec T shapes) (hC : HasVec C shapes) :
    ∃ T', zipUpdate (fun t u => t.addScaled c u) T C = .ok T' ∧ HasVec T' shapes ∧
      ∀ r < total shapes, (flatData T').getD r 0 =
        (flatData T).getD r 0 + c * (flatData C).getD r 0 := by
  induction T generalizing C shapes with
  | nil =>
    have hs : shapes = [] := List.length_eq_zero_iff.mp hT.length.symm
    subst hs
    exact ⟨[], by simp [zipUpdate], hT, by simp⟩
  | cons t ts ih =>
    rcases shapes with _ | ⟨s, ss⟩
    · have := hT.length; simp at this
    rcases C with _ | ⟨u, us⟩
    · have := hC.length; simp at this
    have hT' := hasVec_cons.mp hT
    have hC' := hasVec_cons.mp hC
    obtain ⟨T', h1, h2, h3⟩ := ih hT'.2 hC'.2
    have ht : t.data.length = s.prod := by rw [hT'.1.2, hT'.1.1]
    have hu : u.data.length = s.prod := by rw [hC'.1.2, hC'.1.1]
    have hv : HasVec ((⟨t.shape, List.zipWith (fun x y => x + c * y) t.data u.data⟩ : Tensor α) :: T')
        (s :: ss) := by
      rw [hasVec_cons]
      refine ⟨⟨hT'.1.1, ?_⟩, h2⟩
      simp [Tensor.WF, ht, hu, hT'.1.1]
    refine ⟨_, ?_, hv, ?_⟩
    · rw [zipUpdate, Tensor.addScaled, if_pos (by rw [hT'.1.1, hC'.1.1])]
      simp only [h1]
    · intro r hr
      rw [total_cons] at hr
      rw [flat_vec_cons hv, flat_vec_cons hT, flat_vec_cons hC]
      by_cases h : r < s.prod
      · simp only [if_pos h]
        simp [List.getD_eq_getElem?_getD, ht, hu, h]
      · simp only [if_neg h]
        exact h3 _ (by omega)

theorem hasVec_scale [Mul α] {C : List (Tensor α)} {shapes : List (List Nat)} (c : α)
    (hC : HasVec C shapes) : HasVec (C.map (Tensor.scale c)) shapes := by
  constructor
  · rw [List.map_map, ← hC.1]; rfl
  · intro t ht
    obtain ⟨u, hu, rfl⟩ := List.mem_map.mp ht
    simpa [Tensor.WF, Tensor.scale] using hC.2 u hu

theorem flat_scale [MulZeroClass α] (C : List (Tensor α)) (c : α) (r : Nat) :
    (flatData (C.map (Tensor.scale c))).getD r 0 = c * (flatData C).getD r 0 := by
  have : flatData (C.map (Tensor.scale c)) = (flatData C).map (c * ·) := by
    simp [flatData, Tensor.scale, List.map_flatten, Function.comp_def]
  rw [this]
  by_cases h : r < (flatData C).length
  · simp [List.getD_eq_getElem?_getD, h]
  · simp [List.getD_eq_getElem?_getD, h]

theorem gradLossLoop_spec [Field α] {B : Type _} (red : Reduction) (nData : Nat) (size : B → Nat)
    (lg : B → α × List (Tensor α)) (c : B → α) (shapes : List (List Nat)) :
    ∀ (data : List B) (G : List (Tensor α)) (L : α),
      (∀ b ∈ data, normalizationFactor red (size b) nData = .ok (c b)) →
      (∀ b ∈ data, HasVec (lg b).2 shapes) → HasVec G shapes →
      ∃ G' L', gradLossLoop red nData size lg data G L = .ok (G', L') ∧ HasVec G' shapes ∧
        L' = L + (data.map fun b => c b * (lg b).1).sum ∧
        ∀ r < total shapes, (flatData G').getD r 0 = (flatData G).getD r 0 +
          (data.map fun b => c b * (flatData (lg b).2).getD r 0).sum
  | [], G, L, _, _, hG => ⟨G, L, rfl, hG, by simp, by simp⟩
  | b :: bs, G, L, hc, hlg, hG => by
    obtain ⟨G1, a1, a2, a3⟩ := addVec_spec (1 : α) hG (hasVec_scale (c b) (hlg b (by simp)))
    obtain ⟨G', L', h1, h2, h3, h4⟩ := gradLossLoop_spec red nData size lg c shapes bs G1
      (L + (lg b).1 * c b) (fun b' hb' => hc b' (by simp [hb'])) (fun b' hb' => hlg b' (by simp [hb'])) a2
    refine ⟨G', L', ?_, h2, ?_, ?_⟩
    · rw [gradLossLoop, batchLossGrad, hc b (by simp)]
      simp only [a1, h1]
    · rw [h3, List.map_cons, List.sum_cons]; ring
    · intro r hr
      rw [h4 r hr, a3 r hr, flat_scale, List.map_cons, List.sum_cons]; ring

/-- C24: for every partition into non-empty mini-batches, `gradient_and_loss` returns the loss and gradient of
the empirical risk. `l d` and `g d r` are loss and `r`-th partial derivative for datum `d`; the mini-batch
loss function averages or sums over its data. -/
theorem gradientAndLoss_spec [Field α] [CharZero α] {D : Type _} (shapes : List (List Nat))
    (red : Reduction) (hred : red = .mean ∨ red = .sum) (l : D → α) (g : D → Nat → α)
    (lg : List D → α × List (Tensor α)) (batches : List (List D)) (hne : ∀ b ∈ batches, b ≠ [])
    (hloss : ∀ b ∈ batches, (lg b).1 = riskValue red l b)
    (hshape : ∀ b ∈ batches, HasVec (lg b).2 shapes)
    (hgrad : ∀ b ∈ batches, ∀ r < total shapes,
      (flatData (lg b).2).getD r 0 = riskValue red (fun d => g d r) b) :
    ∃ G, gradientAndLoss shapes red (inferNData List.length batches none) List.length (some lg) batches =
        .ok (G, riskValue red l batches.flatten) ∧ HasVec G shapes ∧
      ∀ r < total shapes, (flatData G).getD r 0 = riskValue red (fun d => g d r) batches.flatten := by
  have hN : inferNData List.length batches none = batches.flatten.length := by
    simp [inferNData, List.length_flatten]
  have hpos : ∀ b ∈ batches, 0 < b.length ∧ b.length ≤ batches.flatten.length := by
    intro b hb
    refine ⟨List.length_pos_of_ne_nil (hne b hb), ?_⟩
    rw [List.length_flatten]
    exact List.le_sum_of_mem (List.mem_map_of_mem hb)
  have hvz : HasVec (shapes.map fun s => (⟨s, List.replicate s.prod 0⟩ : Tensor α)) shapes := by
    constructor
    · rw [List.map_map]; exact List.map_id shapes
    · intro t ht
      obtain ⟨s, _, rfl⟩ := List.mem_map.mp ht
      simp [Tensor.WF]
  have hz : ∀ i, (flatData (shapes.map fun s =>
      (⟨s, List.replicate s.prod 0⟩ : Tensor α))).getD i 0 = 0 := by
    intro i
    rw [List.getD_eq_getElem?_getD]
    rcases h : (flatData (shapes.map fun s => (⟨s, List.replicate s.prod 0⟩ : Tensor α)))[i]? with _ | x
    · rfl
    · have hx := List.mem_of_getElem? h
      simp only [flatData, List.mem_flatten, List.mem_map] at hx
      obtain ⟨l, ⟨t, ⟨s, _, rfl⟩, rfl⟩, hx⟩ := hx
      exact (List.mem_replicate.mp hx).2
  rw [hN]
  have hc : ∀ b ∈ batches, normalizationFactor red b.length batches.flatten.length =
      .ok (if red = .mean then (b.length : α) / (batches.flatten.length : α) else 1) := by
    intro b hb
    have := hpos b hb
    unfold normalizationFactor
    rw [if_neg (by omega)]
    rcases hred with rfl | rfl <;> simp
  have key : ∀ h : D → α, (batches.map fun b =>
      (if red = .mean then (b.length : α) / (batches.flatten.length : α) else 1) * riskValue red h b).sum =
      riskValue red h batches.flatten := by
    intro h
    unfold riskValue
    rw [sum_map_flatten h batches, ← List.sum_map_mul_left]
    refine congrArg List.sum (List.map_congr_left fun b hb => ?_)
    have h1 : (b.length : α) ≠ 0 := by
      have := (hpos b hb).1; exact_mod_cast this.ne'
    rcases hred with rfl | rfl
    · simp only [if_true]
      field_simp
    · simp
  obtain ⟨G, L, g1, g2, g3, g4⟩ := gradLossLoop_spec red batches.flatten.length List.length lg _ shapes
    batches _ 0 hc hshape hvz
  refine ⟨G, ?_, g2, ?_⟩
  · unfold gradientAndLoss
    simp only [g1, g3, zero_add]
    congr 2
    rw [← key l]
    exact congrArg List.sum (List.map_congr_left fun b hb => by rw [hloss b hb])
  · intro r hr
    rw [g4 r hr, hz, zero_add, ← key (fun d => g d r)]
    exact congrArg List.sum (List.map_congr_left fun b hb => by rw [hgrad b hb r hr])

/-- C24: without a loss function `gradient_and_loss` raises `ValueError`. -/
theorem gradientAndLoss_no_loss [Field α] {B : Type _} (shapes : List (List Nat)) (red : Reduction)
    (n : Nat) (size : B → Nat) (data : List B) :
    gradientAndLoss (α := α) shapes red n size none data = .error .valueError := rfl

/-- Non-vacuity: `l d = d`, `g d r = d + r` over two unequal batches. -/
example : ∃ G, gradientAndLoss (α := ℚ) [[2], []] .mean 3 List.length
      (some fun b : List ℚ => (riskValue .mean id b,
        [⟨[2], [riskValue .mean (fun d => d + 0) b, riskValue .mean (fun d => d + 1) b]⟩,
         ⟨[], [riskValue .mean (fun d => d + 2) b]⟩])) [[1, 2], [4]] =
        .ok (G, riskValue .mean id [1, 2, 4]) ∧ HasVec G [[2], []] ∧
      ∀ r < 3, (flatData G).getD r 0 = riskValue .mean (fun d => d + (r : ℚ)) [1, 2, 4] := by
  refine gradientAndLoss_spec (α := ℚ) [[2], []] .mean (Or.inl rfl) id (fun d r => d + r) _
    [[1, 2], [4]] (by simp) (fun _ _ => rfl) (fun b _ => ?_) (fun b _ r hr => ?_)
  · constructor
    · rfl
    · intro t ht
      simp at ht
      rcases ht with rfl | rfl <;> simp [Tensor.WF]
  · have : r < 3 := hr
    interval_cases r <;> simp [flatData]

/-! ## C25: what an accepted check guarantees -/

variable {V : Type _} [AddCommMonoid V]

omit [AddCommMonoid V] in
theorem checkMapping_refl (close : V → V → Bool) (hrefl : ∀ v, close v v = true)
    (all : List (String × MapVal V)) :
    ∀ items : List (String × MapVal V), (∀ p ∈ items, all.lookup p.1 = some p.2) →
      checkMapping close all items = .ok ()
  | [], _ => rfl
  | (k, v) :: rest, h => by
    have hk := h (k, v) (by simp)
    have ih := checkMapping_refl close hrefl all rest fun p hp => h p (by simp [hp])
    rw [checkMapping]
    simp only at hk
    rw [hk]
    cases v with
    | tensor a => simp [hrefl a, ih]
    | other => simp [ih]

/-- The keys of dict-like inputs are distinct (as in every Python mapping). -/
def Input.KeysNodup : Input V → Prop
  | .tensor _ => True
  | .mapping items => (items.map (·.1)).Nodup

theorem lookup_of_mem_nodup {β : Type _} : ∀ (l : List (String × β)), (l.map (·.1)).Nodup →
    ∀ p ∈ l, l.lookup p.1 = some p.2
  | [], _, p, hp => by simp at hp
  | (k, v) :: l, h, p, hp => by
    rw [List.map_cons, List.nodup_cons] at h
    rcases List.mem_cons.mp hp with rfl | hp'
    · simp [List.lookup]
    · have : p.1 ≠ k := by
        rintro rfl
        exact h.1 (List.mem_map.mpr ⟨p, hp', rfl⟩)
      rw [List.lookup_cons]
      have hb : (p.1 == k) = false := by simpa using this
      rw [hb]
      exact lookup_of_mem_nodup l h.2 p hp'

omit [AddCommMonoid V] in
theorem checkBatch_refl (close : V → V → Bool) (hrefl : ∀ v, close v v = true) (hasLoss : Bool)
    (r : Rec V) (hr : r.X.KeysNodup) : checkBatch close hasLoss r r = .ok () := by
  unfold checkBatch
  have h1 : checkInput close r.X r.X = .ok () := by
    rcases hX : r.X with v | items
    · simp [checkInput, expectClose, hrefl]
    · rw [checkInput]
      rw [hX] at hr
      exact checkMapping_refl close hrefl items items (lookup_of_mem_nodup items hr)
  have h2 : (r.grad.zip r.grad).any (fun p => !close p.1 p.2) = false := by
    rw [List.any_eq_false]
    intro p hp
    have : p.1 = p.2 := by
      have := List.mem_iff_getElem.mp hp
      obtain ⟨i, hi, rfl⟩ := this
      simp
    rw [this, hrefl]; simp
  simp [h1, hrefl, h2]

omit [AddCommMonoid V] in
theorem checkLoop_same [Add V] (close : V → V → Bool) (hrefl : ∀ v, close v v = true)
    (fixedOrder hasLoss : Bool) :
    ∀ (run : List (Rec V)) (a : Acc V), (∀ r ∈ run, r.X.KeysNodup) → a.loss1 = a.loss2 →
      a.grad1 = a.grad2 → (∀ p, a.last = some p → p.1 = p.2) →
      ∃ a', checkLoop close fixedOrder hasLoss (run.zip run) a = .ok a' ∧ a'.grad1 = a'.grad2 ∧
        (∀ p, a'.last = some p → p.1 = p.2) ∧
        (hasLoss = true → (run ≠ [] ∨ a.last ≠ none) → a'.last ≠ none)
  | [], a, _, _, h2, h3 => ⟨a, rfl, h2, h3, by simp⟩
  | r :: rs, a, hk, h1, h2, h3 => by
    have hb : (if fixedOrder then checkBatch close hasLoss r r else .ok ()) = .ok () := by
      cases fixedOrder <;> simp [checkBatch_refl close hrefl hasLoss r (hk r (by simp))]
    rw [List.zip_cons_cons, checkLoop, hb]
    cases hasLoss with
    | true =>
      obtain ⟨a', g1, g2, g3, g4⟩ := checkLoop_same close hrefl fixedOrder true rs
        ⟨a.loss1 + r.loss, a.loss2 + r.loss, addZip a.grad1 r.grad, addZip a.grad2 r.grad,
          some (r.loss, r.loss)⟩ (fun r' hr' => hk r' (by simp [hr'])) (by simp [h1]) (by simp [h2])
        (by simp)
      exact ⟨a', by simpa using g1, g2, g3, fun _ _ => g4 rfl (Or.inr (by simp))⟩
    | false =>
      obtain ⟨a', g1, g2, g3, -⟩ := checkLoop_same close hrefl fixedOrder false rs a
        (fun r' hr' => hk r' (by simp [hr'])) h1 h2 h3
      exact ⟨a', by simpa using g1, g2, g3, by simp⟩

omit [AddCommMonoid V] in
/-- C25: if both traversals give the same (non-empty) sequence of batches, predictions, losses and gradients,
and both products agree, the check passes, for every reflexive comparison and every addition (also a rounded one). -/
theorem checkDeterministic_accepts [Zero V] [Add V] (close : V → V → Bool) (hrefl : ∀ v, close v v = true)
    (fixedOrder hasLoss : Bool) (n : Nat) (run : List (Rec V)) (hrun : run ≠ [])
    (hk : ∀ r ∈ run, r.X.KeysNodup) (v : V) :
    checkDeterministic close fixedOrder hasLoss n run run (.ok v) (.ok v) = .ok () := by
  obtain ⟨a', g1, g2, g3, g4⟩ := checkLoop_same close hrefl fixedOrder hasLoss run
    ⟨0, 0, List.replicate n 0, List.replicate n 0, none⟩ hk rfl rfl (by simp)
  have hany : (a'.grad1.zip a'.grad2).any (fun p => !close p.1 p.2) = false := by
    rw [g2, List.any_eq_false]
    intro p hp
    obtain ⟨i, hi, rfl⟩ := List.mem_iff_getElem.mp hp
    simp [hrefl]
  unfold checkDeterministic checkTotals
  simp only [g1]
  cases hasLoss with
  | false => simp [expectClose, hrefl]
  | true =>
    rcases hl : a'.last with _ | ⟨l1, l2⟩
    · exact absurd hl (g4 rfl (Or.inl hrun))
    · have : l1 = l2 := g3 _ hl
      subst this
      simp [hrefl, hany, expectClose]

/-- Specification: inputs agree within tolerance. -/
def InputClose (close : V → V → Bool) : Input V → Input V → Prop
  | .tensor a, .tensor b => close a b = true
  | .mapping i1, .mapping i2 => ∀ p ∈ i1, ∃ w, i2.lookup p.1 = some w ∧
      ∀ a, p.2 = .tensor a → ∃ b, w = .tensor b ∧ close a b = true
  | _, _ => False

omit [AddCommMonoid V] in
theorem checkMapping_ok (close : V → V → Bool) (i2 : List (String × MapVal V)) :
    ∀ i1 : List (String × MapVal V), checkMapping close i2 i1 = .ok () →
      ∀ p ∈ i1, ∃ w, i2.lookup p.1 = some w ∧ ∀ a, p.2 = .tensor a → ∃ b, w = .tensor b ∧ close a b = true
  | [], _, p, hp => by simp at hp
  | (k, v) :: rest, h, p, hp => by
    rw [checkMapping] at h
    rcases hl : i2.lookup k with _ | w
    · rw [hl] at h; cases h
    rw [hl] at h
    rcases v with a | _ <;> rcases w with b | _
    · simp only at h
      split at h
      · rename_i hc
        rcases List.mem_cons.mp hp with rfl | hp
        · exact ⟨.tensor b, hl, fun a' ha' => ⟨b, rfl, by cases ha'; exact hc⟩⟩
        · exact checkMapping_ok close i2 rest h p hp
      · cases h
    · cases h
    all_goals
      rcases List.mem_cons.mp hp with rfl | hp
      · exact ⟨_, hl, fun a' ha' => by cases ha'⟩
      · exact checkMapping_ok close i2 rest h p hp

omit [AddCommMonoid V] in
theorem checkBatch_ok (close : V → V → Bool) (hasLoss : Bool) (r1 r2 : Rec V)
    (h : checkBatch close hasLoss r1 r2 = .ok ()) :
    InputClose close r1.X r2.X ∧ close r1.y r2.y = true ∧ close r1.pred r2.pred = true ∧
      (hasLoss = true → close r1.loss r2.loss = true ∧
        ∀ p ∈ r1.grad.zip r2.grad, close p.1 p.2 = true) := by
  unfold checkBatch at h
  rcases hX : checkInput close r1.X r2.X with e | u
  · rw [hX] at h; cases h
  rw [hX] at h
  simp only at h
  split at h
  · cases h
  rename_i hy
  split at h
  · cases h
  rename_i hp
  split at h
  · cases h
  rename_i hl
  split at h
  · cases h
  rename_i hg
  refine ⟨?_, by simpa using hy, by simpa using hp, ?_⟩
  · rcases h1 : r1.X with a | i1 <;> rcases h2 : r2.X with b | i2 <;> rw [h1, h2] at hX
    · simp only [checkInput, expectClose] at hX
      split at hX
      · assumption
      · cases hX
    · cases hX
    · cases hX
    · exact checkMapping_ok close i2 i1 hX
  · rintro rfl
    refine ⟨by simpa using hl, ?_⟩
    simpa using hg

/-- Element-wise totals of the gradients in a traversal. -/
def totalGrad (run : List (Rec V)) (i : Nat) : V :=
  (run.map fun r => r.grad.getD i 0).sum

theorem addZip_length {W : Type _} [Add W] : ∀ a b : List W, (addZip a b).length = a.length
  | [], _ => by simp [addZip]
  | a :: as, [] => by simp [addZip]
  | a :: as, b :: bs => by simp [addZip, addZip_length as bs]

theorem addZip_getD : ∀ (a b : List V) (i : Nat), i < a.length →
    (addZip a b).getD i 0 = a.getD i 0 + b.getD i 0
  | [], _, i, h => by simp at h
  | a :: as, [], i, h => by simp [addZip]
  | a :: as, b :: bs, 0, h => by simp [addZip]
  | a :: as, b :: bs, i + 1, h => by
    have := addZip_getD as bs i (by simpa using h)
    simpa [addZip] using this

theorem checkLoop_ok (close : V → V → Bool) (fixedOrder hasLoss : Bool) :
    ∀ (pairs : List (Rec V × Rec V)) (a a' : Acc V),
      checkLoop close fixedOrder hasLoss pairs a = .ok a' →
      (fixedOrder = true → ∀ p ∈ pairs, checkBatch close hasLoss p.1 p.2 = .ok ()) ∧
      (hasLoss = true → a'.grad1.length = a.grad1.length ∧ a'.grad2.length = a.grad2.length ∧
        (∀ i < a.grad1.length, a'.grad1.getD i 0 =
          a.grad1.getD i 0 + (pairs.map fun p => p.1.grad.getD i 0).sum) ∧
        (∀ i < a.grad2.length, a'.grad2.getD i 0 =
          a.grad2.getD i 0 + (pairs.map fun p => p.2.grad.getD i 0).sum) ∧
        a'.last = (pairs.getLast?.map fun p => (p.1.loss, p.2.loss)).or a.last)
  | [], a, a', h => by
    cases h
    simp
  | (r1, r2) :: rest, a, a', h => by
    rw [checkLoop] at h
    rcases hb : (if fixedOrder then checkBatch close hasLoss r1 r2 else .ok ()) with e | u
    · rw [hb] at h; cases h
    rw [hb] at h
    simp only at h
    obtain ⟨g1, g2⟩ := checkLoop_ok close fixedOrder hasLoss rest _ a' h
    refine ⟨?_, ?_⟩
    · rintro rfl p hp
      rcases List.mem_cons.mp hp with rfl | hp
      · simpa using hb
      · exact g1 rfl p hp
    · rintro rfl
      obtain ⟨k1, k2, k3, k4, k5⟩ := g2 rfl
      simp only [if_true] at k1 k2 k3 k4 k5
      rw [addZip_length] at k1 k2
      refine ⟨k1, k2, ?_, ?_, ?_⟩
      · intro i hi
        rw [k3 i (by rw [addZip_length]; exact hi), addZip_getD _ _ _ hi, List.map_cons, List.sum_cons,
          add_assoc]
      · intro i hi
        rw [k4 i (by rw [addZip_length]; exact hi), addZip_getD _ _ _ hi, List.map_cons, List.sum_cons,
          add_assoc]
      · rw [k5]
        rcases rest with _ | ⟨q, rest⟩
        · simp
        · rw [List.getLast?_cons_cons]
          simp [List.getLast?_cons]

/-- C25, converse: if the check passes then the two products agree within tolerance; with a loss function the
accumulated gradients of the (compared part of the) two traversals agree within tolerance; for operators that
need a fixed data order, inputs, labels, predictions and, with a loss function, losses and gradients of all
compared batches agree within tolerance. -/
theorem checkDeterministic_ok (close : V → V → Bool) (fixedOrder hasLoss : Bool) (n : Nat)
    (run1 run2 : List (Rec V)) (Av1 Av2 : Py V)
    (h : checkDeterministic close fixedOrder hasLoss n run1 run2 Av1 Av2 = .ok ()) :
    (∃ v1 v2, Av1 = .ok v1 ∧ Av2 = .ok v2 ∧ close v1 v2 = true) ∧
    (hasLoss = true → ∀ i < n, close (totalGrad ((run1.zip run2).map (·.1)) i)
      (totalGrad ((run1.zip run2).map (·.2)) i) = true) ∧
    (fixedOrder = true → ∀ p ∈ run1.zip run2,
      InputClose close p.1.X p.2.X ∧ close p.1.y p.2.y = true ∧ close p.1.pred p.2.pred = true ∧
      (hasLoss = true → close p.1.loss p.2.loss = true ∧
        ∀ q ∈ p.1.grad.zip p.2.grad, close q.1 q.2 = true)) := by
  unfold checkDeterministic at h
  rcases hl : checkLoop close fixedOrder hasLoss (run1.zip run2)
      ⟨0, 0, List.replicate n 0, List.replicate n 0, none⟩ with e | a
  · rw [hl] at h; cases h
  rw [hl] at h
  simp only at h
  obtain ⟨h1, h2⟩ := checkLoop_ok close fixedOrder hasLoss _ _ a hl
  refine ⟨?_, ?_, ?_⟩
  · rcases hA : checkTotals close hasLoss a with e | u
    · rw [hA] at h; cases h
    rw [hA] at h
    rcases Av1 with e | v1
    · cases h
    rcases Av2 with e | v2
    · cases h
    simp only [expectClose] at h
    split at h
    · exact ⟨v1, v2, rfl, rfl, by assumption⟩
    · cases h
  · rintro rfl i hi
    obtain ⟨k1, k2, k3, k4, k5⟩ := h2 rfl
    rcases hlast : a.last with _ | ⟨l1, l2⟩
    · simp only [checkTotals, hlast, if_true] at h; cases h
    rcases hA : checkTotals close true a with e | u
    · rw [hA] at h; cases h
    · simp only [checkTotals, hlast, if_true] at hA
      split at hA
      · cases hA
      split at hA
      · cases hA
      rename_i hany
      have hany : ∀ p ∈ a.grad1.zip a.grad2, close p.1 p.2 = true := by simpa using hany
      simp only [List.length_replicate] at k1 k2 k3 k4
      have e1 := k3 i hi
      have e2 := k4 i hi
      have hz : (List.replicate n (0 : V)).getD i 0 = 0 := by
        simp [List.getD_eq_getElem?_getD, hi]
      rw [hz, zero_add] at e1 e2
      have hmem : (a.grad1.getD i 0, a.grad2.getD i 0) ∈ a.grad1.zip a.grad2 := by
        rw [List.mem_iff_getElem]
        refine ⟨i, by simp [k1, k2, hi], ?_⟩
        simp [List.getElem_zip, List.getD_eq_getElem?_getD, k1, k2, hi]
      have := hany _ hmem
      rw [e1, e2] at this
      unfold totalGrad
      rw [List.map_map, List.map_map]
      exact this
  · rintro rfl p hp
    exact checkBatch_ok close hasLoss p.1 p.2 (h1 rfl p hp)

/-- Non-vacuity of C25: dict-like inputs with a tensor and a non-tensor entry, two batches. -/
example : checkDeterministic (fun a b : ℤ => a - b ≤ 1 && b - a ≤ 1) true true 1
    [⟨.mapping [("x", .tensor 4), ("n", .other)], 1, 2, 3, [4]⟩, ⟨.tensor 0, 1, 2, 3, [5]⟩]
    [⟨.mapping [("n", .other), ("x", .tensor 5)], 1, 2, 3, [4]⟩, ⟨.tensor 1, 1, 2, 3, [6]⟩]
    (.ok 0) (.ok 1) = .ok () := by decide

/-! ## C26: the total loss -/

/-- A record that only has a loss. -/
def lossRec (l : ℤ) : Rec ℤ := ⟨.tensor 0, 0, 0, l, []⟩

/-- Inputs that are tensors. -/
def Input.IsTensor : Input V → Prop
  | .tensor _ => True
  | .mapping _ => False

omit [AddCommMonoid V] in
theorem checkBatch_error (close : V → V → Bool) (hasLoss : Bool) {r1 r2 : Rec V} (h1 : r1.X.IsTensor) (h2 : r2.X.IsTensor) :
    checkBatch close hasLoss r1 r2 = .ok () ∨ checkBatch close hasLoss r1 r2 = .error .runtimeError := by
  unfold checkBatch
  have h : checkInput close r1.X r2.X = .ok () ∨ checkInput close r1.X r2.X = .error .runtimeError := by
    rcases hX : r1.X with v | i
    · rcases hY : r2.X with w | j
      · simp only [checkInput, expectClose]
        by_cases hc : close v w = true <;> simp [hc]
      · rw [hY] at h2; exact h2.elim
    · rw [hX] at h1; exact h1.elim
  rcases h with h | h
  · rw [h]
    simp only
    split_ifs <;> simp
  · rw [h]; simp

theorem checkLoop_error (close : V → V → Bool) (fixedOrder hasLoss : Bool) :
    ∀ (pairs : List (Rec V × Rec V)) (a : Acc V), (∀ p ∈ pairs, p.1.X.IsTensor ∧ p.2.X.IsTensor) →
      (∃ a', checkLoop close fixedOrder hasLoss pairs a = .ok a' ∧
        (hasLoss = true → (pairs ≠ [] ∨ a.last ≠ none) → a'.last ≠ none)) ∨
      checkLoop close fixedOrder hasLoss pairs a = .error .runtimeError
  | [], a, _ => Or.inl ⟨a, rfl, by simp⟩
  | (r1, r2) :: rest, a, h => by
    have hp := h (r1, r2) (by simp)
    have hb : (if fixedOrder then checkBatch close hasLoss r1 r2 else .ok ()) = .ok () ∨
        (if fixedOrder then checkBatch close hasLoss r1 r2 else .ok ()) = .error .runtimeError := by
      cases fixedOrder
      · simp
      · simpa using checkBatch_error close hasLoss hp.1 hp.2
    rw [checkLoop]
    rcases hb with hb | hb
    · rw [hb]
      rcases checkLoop_error close fixedOrder hasLoss rest
        (if hasLoss then
          ⟨a.loss1 + r1.loss, a.loss2 + r2.loss, addZip a.grad1 r1.grad, addZip a.grad2 r2.grad,
            some (r1.loss, r2.loss)⟩
        else a) (fun p hp => h p (by simp [hp])) with ⟨a', e, hl⟩ | e
      · refine Or.inl ⟨a', e, fun hL _ => hl hL (Or.inr ?_)⟩
        simp [hL]
      · exact Or.inr e
    · rw [hb]
      exact Or.inr rfl

/-- C25: if the model's inputs are tensors, there are data in both traversals and the products do not raise, the check either passes or
raises `RuntimeError`, as documented. -/
theorem checkDeterministic_error (close : V → V → Bool) (fixedOrder hasLoss : Bool) (n : Nat)
    (run1 run2 : List (Rec V)) (h1 : run1 ≠ []) (h2 : run2 ≠ []) (hX1 : ∀ r ∈ run1, r.X.IsTensor) (hX2 : ∀ r ∈ run2, r.X.IsTensor)
    (v1 v2 : V) :
    checkDeterministic close fixedOrder hasLoss n run1 run2 (.ok v1) (.ok v2) = .ok () ∨
      checkDeterministic close fixedOrder hasLoss n run1 run2 (.ok v1) (.ok v2) = .error .runtimeError := by
  unfold checkDeterministic
  have hz : run1.zip run2 ≠ [] := by
    rcases run1 with _ | ⟨a, as⟩
    · exact absurd rfl h1
    · rcases run2 with _ | ⟨b, bs⟩
      · exact absurd rfl h2
      · simp
  rcases checkLoop_error close fixedOrder hasLoss (run1.zip run2)
      ⟨0, 0, List.replicate n 0, List.replicate n 0, none⟩
      (fun p hp => ⟨hX1 _ (List.of_mem_zip hp).1, hX2 _ (List.of_mem_zip hp).2⟩) with ⟨a, e, hl⟩ | e
  · rw [e]
    have ht : checkTotals close hasLoss a = .ok () ∨ checkTotals close hasLoss a = .error .runtimeError := by
      unfold checkTotals
      by_cases hL : hasLoss = true
      · rw [if_pos hL]
        have := hl hL (Or.inl hz)
        rcases hla : a.last with _ | ⟨l1, l2⟩
        · exact absurd hla this
        · simp only
          split_ifs <;> simp
      · rw [if_neg hL]; simp
    rcases ht with ht | ht
    · simp only [ht]
      unfold expectClose
      split_ifs <;> simp
    · simp only [ht]; simp
  · rw [e]; simp

/-- Non-vacuity: the losses of the two traversals differ; without a loss, the products differ. -/
example : checkDeterministic (fun a b : ℤ => a == b) true true 0 [lossRec 1] [lossRec 2] (.ok 0) (.ok 0) = .error .runtimeError ∧
    checkDeterministic (fun a b : ℤ => a == b) true false 0 [lossRec 1] [lossRec 2] (.ok 0) (.ok 1) = .error .runtimeError := by
  decide

/-- C26 is violated: the total losses 3 and 7 differ, but the check passes, because only the losses of the last
batch are compared. -/
theorem check_misses_total_loss :
    checkDeterministic (fun a b : ℤ => a == b) false true 0 [lossRec 1, lossRec 2] [lossRec 5, lossRec 2]
      (.ok 0) (.ok 0) = .ok () ∧
    ([lossRec 1, lossRec 2].map (·.loss)).sum ≠ ([lossRec 5, lossRec 2].map (·.loss)).sum := by
  decide

/-- C26 is violated: the same batches in another order have the same total loss, but the check raises although
the operator does not need a fixed data order. -/
theorem check_rejects_reordering :
    checkDeterministic (fun a b : ℤ => a == b) false true 0 [lossRec 1, lossRec 2] [lossRec 2, lossRec 1]
      (.ok 0) (.ok 0) = .error .runtimeError ∧
    [lossRec 1, lossRec 2].Perm [lossRec 2, lossRec 1] ∧
    ([lossRec 1, lossRec 2].map (·.loss)).sum = ([lossRec 2, lossRec 1].map (·.loss)).sum := by
  refine ⟨by decide, List.Perm.swap _ _ _, by decide⟩

/-- C26 is violated: a second traversal with fewer batches is not noticed, not even by operators that need a
fixed data order. -/
theorem check_misses_missing_batch :
    checkDeterministic (fun a b : ℤ => a == b) true true 0 [lossRec 1, lossRec 2] [lossRec 1]
      (.ok 0) (.ok 0) = .ok () := by
  decide

/-- C26, the part that holds: what is compared are the losses of the last pair of batches, so with a single
batch an accepted check compared the total loss. Missing for the full claim: totals over several batches and
traversals of different length. -/
theorem check_total_loss_partial (close : V → V → Bool) (fixedOrder : Bool) (n : Nat) (r1 r2 : Rec V)
    (Av1 Av2 : Py V)
    (h : checkDeterministic close fixedOrder true n [r1] [r2] Av1 Av2 = .ok ()) :
    close ([r1].map (·.loss)).sum ([r2].map (·.loss)).sum = true := by
  unfold checkDeterministic at h
  rcases hl : checkLoop close fixedOrder true ([r1].zip [r2])
      ⟨0, 0, List.replicate n 0, List.replicate n 0, none⟩ with e | a
  · rw [hl] at h; cases h
  rw [hl] at h
  have := ((checkLoop_ok close fixedOrder true _ _ a hl).2 rfl).2.2.2.2
  simp only [List.zip_cons_cons, List.zip_nil_left, List.getLast?_singleton, Option.map_some,
    Option.some_or] at this
  simp only at h
  rcases hA : checkTotals close true a with e | u
  · rw [hA] at h; cases h
  · simp only [checkTotals, this, if_true] at hA
    split at hA
    · cases hA
    rename_i hc
    simpa using hc

example : checkDeterministic (fun a b : ℤ => a == b) false true 0 [lossRec 1] [lossRec 1]
    (.ok 0) (.ok 0) = .ok () := by decide

/-! ## C27: devices -/

section device

variable {D : Type _} [DecidableEq D]

theorem paramsTo_of_all (d : D) : ∀ (ps : List Nat) (dev : Nat → D) (n : Nat), (∀ p ∈ ps, dev p = d) →
    paramsTo d ps dev n = (ps, dev, n)
  | [], _, _, _ => rfl
  | p :: ps, dev, n, h => by
    rw [paramsTo, if_pos (h p (by simp)), paramsTo_of_all d ps dev n fun q hq => h q (by simp [hq])]

theorem paramsTo_on (d : D) : ∀ (ps : List Nat) (dev : Nat → D) (n : Nat), (∀ p ∈ ps, p < n) →
    (∀ p ∈ (paramsTo d ps dev n).1, (paramsTo d ps dev n).2.1 p = d) ∧
    (∀ p ∈ (paramsTo d ps dev n).1, p < (paramsTo d ps dev n).2.2) ∧ n ≤ (paramsTo d ps dev n).2.2 ∧
    (∀ q < n, (paramsTo d ps dev n).2.1 q = dev q)
  | [], _, _, _ => by simp [paramsTo]
  | p :: ps, dev, n, h => by
    rw [paramsTo]
    by_cases hp : dev p = d
    · obtain ⟨h1, h2, h3, h4⟩ := paramsTo_on d ps dev n fun q hq => h q (by simp [hq])
      simp only [if_pos hp]
      refine ⟨?_, ?_, h3, h4⟩
      · intro q hq
        rcases List.mem_cons.mp hq with rfl | hq
        · rw [h4 q (h q (by simp)), hp]
        · exact h1 q hq
      · intro q hq
        rcases List.mem_cons.mp hq with rfl | hq
        · exact (h q (by simp)).trans_le h3
        · exact h2 q hq
    · obtain ⟨h1, h2, h3, h4⟩ := paramsTo_on d ps (Function.update dev n d) (n + 1)
        fun q hq => (h q (by simp [hq])).trans (Nat.lt_succ_self n)
      simp only [if_neg hp]
      refine ⟨?_, ?_, by omega, ?_⟩
      · intro q hq
        rcases List.mem_cons.mp hq with rfl | hq
        · rw [h4 q (Nat.lt_succ_self q)]; simp
        · exact h1 q hq
      · intro q hq
        rcases List.mem_cons.mp hq with rfl | hq
        · omega
        · exact h2 q hq
      · intro q hq
        rw [h4 q (by omega), Function.update_of_ne (by omega)]

theorem toDevice_on (d : D) (s : DevState D) (hs : ∀ p ∈ s.params, p < s.next) :
    (toDevice d s).device = d ∧ (∀ p ∈ (toDevice d s).params, (toDevice d s).dev p = d) ∧
      (∀ p ∈ (toDevice d s).params, p < (toDevice d s).next) := by
  unfold toDevice
  have := paramsTo_on d s.params
    (if s.isModule then (fun i => if i ∈ s.owned then d else s.dev i) else s.dev) s.next hs
  exact ⟨rfl, this.1, this.2.1⟩

/-- C27: whatever the outcome of the check, afterwards the operator is on its previous device and so are all
its parameters; the outcome itself is passed on. -/
theorem constructorCheck_device (cpu : D) (enabled : Bool) (check : DevState D → Py Unit)
    (s : DevState D) (hs : ∀ p ∈ s.params, p < s.next) (hd : ∀ p ∈ s.params, s.dev p = s.device) :
    (constructorCheck cpu enabled check s).2.device = s.device ∧
    (∀ p ∈ (constructorCheck cpu enabled check s).2.params,
      (constructorCheck cpu enabled check s).2.dev p = s.device) ∧
    (enabled = true → (constructorCheck cpu enabled check s).1 = check (toDevice cpu s)) := by
  cases enabled with
  | false => exact ⟨rfl, hd, by simp⟩
  | true =>
    obtain ⟨-, -, h3⟩ := toDevice_on cpu s hs
    obtain ⟨h1, h2, -⟩ := toDevice_on s.device (toDevice cpu s) h3
    exact ⟨h1, h2, fun _ => rfl⟩

/-- C27: if the model is a `Module` that owns the operator's parameters, the parameters are the same objects as
before, again on their device, and no other tensor outside the model changed. -/
theorem constructorCheck_same_objects (cpu : D) (enabled : Bool) (check : DevState D → Py Unit)
    (s : DevState D) (hmod : s.isModule = true) (hown : ∀ p ∈ s.params, p ∈ s.owned)
    (hd : ∀ p ∈ s.params, s.dev p = s.device) :
    (constructorCheck cpu enabled check s).2.params = s.params ∧
    (∀ p ∈ s.params, (constructorCheck cpu enabled check s).2.dev p = s.dev p) ∧
    (∀ q, q ∉ s.owned → (constructorCheck cpu enabled check s).2.dev q = s.dev q) := by
  cases enabled with
  | false => exact ⟨rfl, fun _ _ => rfl, fun _ _ => rfl⟩
  | true =>
    have h1 : toDevice cpu s = { s with
        device := cpu, dev := fun i => if i ∈ s.owned then cpu else s.dev i } := by
      unfold toDevice
      simp only [if_pos hmod]
      rw [paramsTo_of_all]
      intro p hp; simp [hown p hp]
    have h2 : toDevice s.device (toDevice cpu s) = { s with
        dev := fun i => if i ∈ s.owned then s.device else s.dev i } := by
      rw [h1]
      unfold toDevice
      simp only [hmod, if_true]
      rw [paramsTo_of_all]
      · simp only [DevState.mk.injEq, and_self, and_true]
        funext i; by_cases hi : i ∈ s.owned <;> simp [hi]
      · intro p hp; simp [hown p hp]
    have h3 : (constructorCheck cpu true check s).2 = { s with
        dev := fun i => if i ∈ s.owned then s.device else s.dev i } := h2
    rw [h3]
    refine ⟨rfl, fun p hp => ?_, fun q hq => ?_⟩
    · simp [hown p hp, hd p hp]
    · simp [hq]

/-- Why C27 needs the module: with a plain function as model and parameters on another device, the check
replaces the operator's parameters by new tensors. -/
theorem constructorCheck_replaces_params :
    (constructorCheck (D := Bool) false true (fun _ => .ok ())
      ⟨fun _ => true, 1, true, false, [], [0]⟩).2.params ≠ [0] := by
  decide

/-- A parameter of the model that was not passed to the operator and lives on another device is moved by the
check and not moved back. -/
theorem constructorCheck_moves_others :
    (constructorCheck (D := Bool) false true (fun _ => .ok ())
      ⟨fun i => i == 0, 2, true, true, [0, 1], [0]⟩).2.dev 1 ≠
    (⟨fun i => i == 0, 2, true, true, [0, 1], [0]⟩ : DevState Bool).dev 1 := by
  decide

/-- Non-vacuity: a module with two parameters on device `true`, the check raises. -/
example : (constructorCheck (D := Bool) false true (fun _ => .error .runtimeError)
      ⟨fun _ => true, 2, true, true, [0, 1], [1, 0]⟩).1 = .error .runtimeError ∧
    (constructorCheck (D := Bool) false true (fun _ => .error .runtimeError)
      ⟨fun _ => true, 2, true, true, [0, 1], [1, 0]⟩).2.params = [1, 0] := by decide

end device

end Curvlinops
