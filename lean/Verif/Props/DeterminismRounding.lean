import Verif.Props.Rounding

/-!
# C137: the determinism check and rounding errors
-/

namespace Curvlinops

/-! ## The check for operators without fixed data order, in any arithmetic -/

section any

variable {V : Type _} [Zero V] [Add V]

omit [Zero V] in
theorem addZip_getD_lt [Zero V] : ∀ (a b : List V) (i : Nat), i < a.length → i < b.length → (addZip a b).getD i 0 = a.getD i 0 + b.getD i 0
  | [], _, i, h, _ => by simp at h
  | a :: as, [], i, _, h => by simp at h
  | a :: as, b :: bs, 0, _, _ => by simp [addZip]
  | a :: as, b :: bs, i + 1, h, h' => by
    have := addZip_getD_lt as bs i (by simpa using h) (by simpa using h')
    simpa [addZip] using this

theorem checkLoop_fold (close : V → V → Bool) (n : Nat) : ∀ (pairs : List (Rec V × Rec V)) (a : Acc V),
    (∀ p ∈ pairs, p.1.grad.length = n ∧ p.2.grad.length = n) → a.grad1.length = n → a.grad2.length = n →
    ∃ a', checkLoop close false true pairs a = .ok a' ∧ a'.grad1.length = n ∧ a'.grad2.length = n ∧
      (∀ i < n, a'.grad1.getD i 0 = foldEntry (fun p => p.1.grad.getD i 0) pairs (a.grad1.getD i 0) ∧
        a'.grad2.getD i 0 = foldEntry (fun p => p.2.grad.getD i 0) pairs (a.grad2.getD i 0)) ∧
      a'.last = ((pairs.getLast?.map fun p => (p.1.loss, p.2.loss)).or a.last)
  | [], a, _, h1, h2 => ⟨a, rfl, h1, h2, fun _ _ => ⟨rfl, rfl⟩, rfl⟩
  | p :: ps, a, hp, h1, h2 => by
    obtain ⟨l1, l2⟩ := hp p (by simp)
    obtain ⟨a', g1, g2, g3, g4, g5⟩ := checkLoop_fold close n ps
      ⟨a.loss1 + p.1.loss, a.loss2 + p.2.loss, addZip a.grad1 p.1.grad, addZip a.grad2 p.2.grad, some (p.1.loss, p.2.loss)⟩
      (fun q hq => hp q (by simp [hq])) (by simp [addZip_length, h1]) (by simp [addZip_length, h2])
    refine ⟨a', by simpa [checkLoop] using g1, g2, g3, fun i hi => ?_, ?_⟩
    · obtain ⟨k1, k2⟩ := g4 i hi
      rw [k1, k2, foldEntry_cons, foldEntry_cons, addZip_getD_lt _ _ _ (by omega) (by omega), addZip_getD_lt _ _ _ (by omega) (by omega)]
      exact ⟨rfl, rfl⟩
    · rw [g5]
      cases ps with
      | nil => rfl
      | cons q qs =>
        rw [List.getLast?_cons_cons]
        obtain ⟨z, hz⟩ : ∃ z, (q :: qs).getLast? = some z := ⟨_, List.getLast?_eq_some_getLast (by simp)⟩
        rw [hz]
        rfl

/-- The gradients accumulated in a traversal, as computed. -/
def runTotal (run : List (Rec V)) (i : Nat) : V := foldEntry (fun r => r.grad.getD i 0) run 0

theorem foldEntry_zip (run1 run2 : List (Rec V)) (h : run1.length = run2.length) (i : Nat) :
    foldEntry (fun p : Rec V × Rec V => p.1.grad.getD i 0) (run1.zip run2) 0 = runTotal run1 i ∧
    foldEntry (fun p : Rec V × Rec V => p.2.grad.getD i 0) (run1.zip run2) 0 = runTotal run2 i := by
  constructor
  · conv_rhs => rw [runTotal, ← List.map_fst_zip (l₁ := run1) (l₂ := run2) h.le, foldEntry, List.foldl_map]
    rfl
  · conv_rhs => rw [runTotal, ← List.map_snd_zip (l₁ := run1) (l₂ := run2) h.ge, foldEntry, List.foldl_map]
    rfl

/-- The check of an operator without fixed data order, for two traversals with the same positive number of mini-batches: it compares the losses of the
last mini-batches, the accumulated gradients and the products, and raises a `RuntimeError` otherwise. -/
theorem checkDeterministic_unordered (close : V → V → Bool) (n : Nat) (run1 run2 : List (Rec V)) (hlen : run1.length = run2.length)
    (l1 l2 : V) (h1 : run1.getLast?.map Rec.loss = some l1) (h2 : run2.getLast?.map Rec.loss = some l2)
    (hg1 : ∀ r ∈ run1, r.grad.length = n) (hg2 : ∀ r ∈ run2, r.grad.length = n) (v1 v2 : V) :
    ((close l1 l2 = true ∧ (∀ i < n, close (runTotal run1 i) (runTotal run2 i) = true) ∧ close v1 v2 = true) →
      checkDeterministic close false true n run1 run2 (.ok v1) (.ok v2) = .ok ()) ∧
    (¬(close l1 l2 = true ∧ (∀ i < n, close (runTotal run1 i) (runTotal run2 i) = true) ∧ close v1 v2 = true) →
      checkDeterministic close false true n run1 run2 (.ok v1) (.ok v2) = .error .runtimeError) := by
  obtain ⟨a', g1, g2, g3, g4, g5⟩ := checkLoop_fold close n (run1.zip run2) ⟨0, 0, List.replicate n 0, List.replicate n 0, none⟩
    (fun p hp => ⟨hg1 _ (List.of_mem_zip hp).1, hg2 _ (List.of_mem_zip hp).2⟩) (by simp) (by simp)
  have hlast : a'.last = some (l1, l2) := by
    rw [g5, List.getLast?_eq_getElem?, List.length_zip, ← hlen, min_self]
    rw [List.getLast?_eq_getElem?] at h1 h2
    rw [← hlen] at h2
    rw [Option.map_eq_some_iff] at h1 h2
    obtain ⟨r1, k1, rfl⟩ := h1
    obtain ⟨r2, k2, rfl⟩ := h2
    have : (run1.zip run2)[run1.length - 1]? = some (r1, r2) := by
      rw [List.getElem?_zip_eq_some]
      exact ⟨k1, k2⟩
    rw [this]
    rfl
  have hz : ∀ i < n, (List.replicate n (0 : V)).getD i 0 = 0 := fun i hi => by simp [List.getD_eq_getElem?_getD, hi]
  have hany : (a'.grad1.zip a'.grad2).any (fun p => !close p.1 p.2) = false ↔ ∀ i < n, close (runTotal run1 i) (runTotal run2 i) = true := by
    have e : ∀ i < n, a'.grad1.getD i 0 = runTotal run1 i ∧ a'.grad2.getD i 0 = runTotal run2 i := fun i hi => by
      obtain ⟨k1, k2⟩ := g4 i hi
      obtain ⟨z1, z2⟩ := foldEntry_zip run1 run2 hlen i
      simp only [hz i hi] at k1 k2
      exact ⟨k1.trans z1, k2.trans z2⟩
    rw [List.any_eq_false]
    constructor
    · intro h i hi
      have hmem : (a'.grad1.getD i 0, a'.grad2.getD i 0) ∈ a'.grad1.zip a'.grad2 := by
        rw [List.mem_iff_getElem]
        refine ⟨i, by simp [g2, g3, hi], ?_⟩
        simp [List.getElem_zip, List.getD_eq_getElem?_getD, g2, g3, hi]
      have := h _ hmem
      rw [(e i hi).1, (e i hi).2] at this
      simpa using this
    · intro h p hp
      obtain ⟨i, hi, rfl⟩ := List.mem_iff_getElem.mp hp
      have hi' : i < n := by simpa [g2, g3] using hi
      have := h i hi'
      rw [← (e i hi').1, ← (e i hi').2] at this
      simpa [List.getElem_zip, List.getD_eq_getElem?_getD, g2, g3, hi'] using this
  rw [checkDeterministic, g1]
  simp only [checkTotals, if_true, hlast]
  rw [← hany]
  rcases close l1 l2 <;> rcases (a'.grad1.zip a'.grad2).any (fun p => !close p.1 p.2) <;> rcases close v1 v2 <;>
    simp [expectClose]

end any

/-! ## Rounding errors -/

section rounded

variable {ρ : Rounding} {D : Type _}

open Classical in
/-- `torch.allclose`, for single numbers: `|a - b| ≤ atol + rtol * |b|`. -/
noncomputable def flClose (rtol atol : ℝ) (a b : Fl ρ) : Bool := decide (|a.val - b.val| ≤ atol + rtol * |b.val|)

theorem flClose_iff (rtol atol : ℝ) (a b : Fl ρ) : flClose rtol atol a b = true ↔ |a.val - b.val| ≤ atol + rtol * |b.val| := by
  simp [flClose]

/-- Relative size of the errors of accumulating `n` mini-batches whose gradients have the relative error `η`. -/
noncomputable def accError (ρ : Rounding) (η : ℝ) (n : Nat) : ℝ := (1 + η) * (1 + ρ.u) ^ (n - 1) - 1

/-- The gradients of the mini-batches are those of the data, up to rounding errors: datum `d` contributes `x d i`, bounded by `a d i`, to entry `i`. -/
def BatchGradsWithin (η : ℝ) (n : Nat) (x a : D → Nat → ℝ) (r : List D → Rec (Fl ρ)) (batches : List (List D)) : Prop :=
  ∀ b ∈ batches, (r b).grad.length = n ∧
    ∀ i < n, |((r b).grad.getD i 0).val - (b.map fun d => x d i).sum| ≤ η * (b.map fun d => a d i).sum

theorem runTotal_within {η : ℝ} (hη : 0 ≤ η) {n : Nat} {x a : D → Nat → ℝ} (ha : ∀ d i, |x d i| ≤ a d i) {r : List D → Rec (Fl ρ)}
    {batches : List (List D)} (h : BatchGradsWithin η n x a r batches) {i : Nat} (hi : i < n) :
    |(runTotal (batches.map r) i).val - (batches.flatten.map fun d => x d i).sum| ≤
      accError ρ η batches.length * (batches.flatten.map fun d => a d i).sum := by
  have key := foldEntry_zero_within (fun b => (r b).grad.getD i 0) (fun b => (b.map fun d => x d i).sum) (fun b => (b.map fun d => a d i).sum)
    (1 + η) (by linarith) batches fun b hb => ⟨?_, by rw [add_sub_cancel_left]; exact (h b hb).2 i hi⟩
  · have e : ∀ f : D → ℝ, (batches.flatten.map f).sum = (batches.map fun b => (b.map f).sum).sum := fun f => by
      rw [List.map_flatten, List.sum_flatten, List.map_map]
      rfl
    rw [e, e, runTotal, foldEntry, List.foldl_map]
    exact key
  · induction b with
    | nil => simp
    | cons d b ih' =>
      clear hb
      clear ih'
      have : ∀ l : List D, |(l.map fun d => x d i).sum| ≤ (l.map fun d => a d i).sum := by
        intro l
        induction l with
        | nil => simp
        | cons d l ih =>
          simp only [List.map_cons, List.sum_cons]
          exact (abs_add_le _ _).trans (add_le_add (ha d i) ih)
      exact this _

/-- **C137** (acceptance): the data come in another order and in other mini-batches in the second traversal. The check accepts if the rounding errors are
small compared to the tolerances. -/
theorem check_accepts_reordered {rtol atol η : ℝ} (hrt : 0 ≤ rtol) (hη : 0 ≤ η) {n : Nat} {x a : D → Nat → ℝ} (ha : ∀ d i, |x d i| ≤ a d i)
    {r : List D → Rec (Fl ρ)} {batches batches' : List (List D)} (hlen : batches.length = batches'.length)
    (hperm : batches.flatten.Perm batches'.flatten) (h : BatchGradsWithin η n x a r batches) (h' : BatchGradsWithin η n x a r batches')
    (l1 l2 : Fl ρ) (hl1 : batches.getLast?.map (fun b => (r b).loss) = some l1) (hl2 : batches'.getLast?.map (fun b => (r b).loss) = some l2)
    (hl : |l1.val - l2.val| ≤ atol + rtol * |l2.val|) (v1 v2 : Fl ρ) (hv : |v1.val - v2.val| ≤ atol + rtol * |v2.val|)
    (htol : ∀ i < n, (2 + rtol) * (accError ρ η batches.length * (batches.flatten.map fun d => a d i).sum) ≤
      atol + rtol * |(batches.flatten.map fun d => x d i).sum|) :
    checkDeterministic (flClose rtol atol) false true n (batches.map r) (batches'.map r) (.ok v1) (.ok v2) = .ok () := by
  refine (checkDeterministic_unordered (flClose rtol atol) n (batches.map r) (batches'.map r) (by simpa using hlen) l1 l2
    (by rw [List.getLast?_map, Option.map_map]; exact hl1) (by rw [List.getLast?_map, Option.map_map]; exact hl2)
    (fun q hq => ?_) (fun q hq => ?_) v1 v2).1 ⟨(flClose_iff _ _ _ _).mpr hl, fun i hi => ?_, (flClose_iff _ _ _ _).mpr hv⟩
  · obtain ⟨b, hb, rfl⟩ := List.mem_map.mp hq
    exact (h b hb).1
  · obtain ⟨b, hb, rfl⟩ := List.mem_map.mp hq
    exact (h' b hb).1
  · rw [flClose_iff]
    have e1 := runTotal_within hη ha h hi
    have e2 := runTotal_within hη ha h' hi
    rw [← hlen, ← (hperm.map fun d => x d i).sum_eq, ← (hperm.map fun d => a d i).sum_eq] at e2
    have e3 := htol i hi
    set T := (batches.flatten.map fun d => x d i).sum
    set E := accError ρ η batches.length * (batches.flatten.map fun d => a d i).sum
    have e4 : |(runTotal (batches.map r) i).val - (runTotal (batches'.map r) i).val| ≤ 2 * E := by
      have := abs_sub_le (runTotal (batches.map r) i).val T (runTotal (batches'.map r) i).val
      rw [abs_sub_comm T] at this
      linarith
    have e5 : |T| - E ≤ |(runTotal (batches'.map r) i).val| := by
      have := abs_sub_abs_le_abs_sub T (runTotal (batches'.map r) i).val
      rw [abs_sub_comm] at this
      linarith
    have e6 := mul_le_mul_of_nonneg_left e5 hrt
    linarith

/-- **C137** (refusal): total gradients that differ by more than the tolerances and the rounding errors are refused, whatever the data of the two
traversals are. -/
theorem check_refuses_different {rtol atol η : ℝ} (hrt : 0 ≤ rtol) (hη : 0 ≤ η) {n : Nat} {x a x' a' : D → Nat → ℝ}
    (ha : ∀ d i, |x d i| ≤ a d i) (ha' : ∀ d i, |x' d i| ≤ a' d i) {r r' : List D → Rec (Fl ρ)} {batches batches' : List (List D)}
    (hne : batches ≠ []) (hlen : batches.length = batches'.length) (h : BatchGradsWithin η n x a r batches) (h' : BatchGradsWithin η n x' a' r' batches')
    (v1 v2 : Fl ρ) {i : Nat} (hi : i < n)
    (hd : atol + rtol * (|(batches'.flatten.map fun d => x' d i).sum| + accError ρ η batches'.length * (batches'.flatten.map fun d => a' d i).sum) +
        accError ρ η batches.length * (batches.flatten.map fun d => a d i).sum +
        accError ρ η batches'.length * (batches'.flatten.map fun d => a' d i).sum <
      |(batches.flatten.map fun d => x d i).sum - (batches'.flatten.map fun d => x' d i).sum|) :
    checkDeterministic (flClose rtol atol) false true n (batches.map r) (batches'.map r') (.ok v1) (.ok v2) = .error .runtimeError := by
  have hne' : batches' ≠ [] := by
    intro h0
    rw [h0] at hlen
    exact hne (List.length_eq_zero_iff.mp hlen)
  refine (checkDeterministic_unordered (flClose rtol atol) n (batches.map r) (batches'.map r') (by simpa using hlen) _ _
    (by rw [List.getLast?_map, Option.map_map, List.getLast?_eq_some_getLast hne]; rfl)
    (by rw [List.getLast?_map, Option.map_map, List.getLast?_eq_some_getLast hne']; rfl)
    (fun q hq => ?_) (fun q hq => ?_) v1 v2).2 fun hc => ?_
  · obtain ⟨b, hb, rfl⟩ := List.mem_map.mp hq
    exact (h b hb).1
  · obtain ⟨b, hb, rfl⟩ := List.mem_map.mp hq
    exact (h' b hb).1
  · have e0 := (flClose_iff _ _ _ _).mp (hc.2.1 i hi)
    have e1 := runTotal_within hη ha h hi
    have e2 := runTotal_within hη ha' h' hi
    set T := (batches.flatten.map fun d => x d i).sum
    set T' := (batches'.flatten.map fun d => x' d i).sum
    set E := accError ρ η batches.length * (batches.flatten.map fun d => a d i).sum
    set E' := accError ρ η batches'.length * (batches'.flatten.map fun d => a' d i).sum
    have e3 : |(runTotal (batches'.map r') i).val| ≤ |T'| + E' := by
      have := abs_sub_abs_le_abs_sub (runTotal (batches'.map r') i).val T'
      linarith
    have e4 := mul_le_mul_of_nonneg_left e3 hrt
    have e5 : |T - T'| ≤ |(runTotal (batches.map r) i).val - T| +
        |(runTotal (batches.map r) i).val - (runTotal (batches'.map r') i).val| + |(runTotal (batches'.map r') i).val - T'| := by
      have h1 := abs_sub_le T (runTotal (batches.map r) i).val T'
      have h2 := abs_sub_le (runTotal (batches.map r) i).val (runTotal (batches'.map r') i).val T'
      rw [abs_sub_comm T (runTotal (batches.map r) i).val] at h1
      linarith
    linarith

end rounded

/-! ## Witnesses -/

/-- A record with one gradient entry. -/
noncomputable def gradRec {ρ : Rounding} (g : ℝ) : Rec (Fl ρ) := ⟨.tensor 0, 0, 0, 1, [Fl.of ρ g]⟩

/-- **C137** (negative): in `float32`, with the tolerances of the code, the check refuses a deterministic operator whose three mini-batches come in
another order in the second traversal, although the losses of all mini-batches are equal. -/
theorem check_refuses_shuffled :
    ∃ batches batches' : List (List ℕ), ∃ r : List ℕ → Rec (Fl (binaryFloat 23)), batches.Perm batches' ∧
      (∀ b b', (r b).loss = (r b').loss) ∧
      checkDeterministic (flClose (5 / 10 ^ 5) (1 / 10 ^ 6)) false true 1 (batches.map r) (batches'.map r) (.ok 0) (.ok 0) = .error .runtimeError := by
  let c : List ℕ → ℝ := fun b => if b = [0] then 2 ^ 24 else if b = [1] then 1 / 4 else -2 ^ 24
  refine ⟨[[0], [1], [2]], [[0], [2], [1]], fun b => gradRec (c b), List.Perm.cons _ (List.Perm.swap _ _ _), fun _ _ => rfl, ?_⟩
  refine (checkDeterministic_unordered _ 1 ([[0], [1], [2]].map fun b => gradRec (c b)) ([[0], [2], [1]].map fun b => gradRec (c b)) rfl 1 1 rfl rfl
    (by simp [gradRec]) (by simp [gradRec]) 0 0).2 fun hc => ?_
  have h := (flClose_iff _ _ _ _).mp (hc.2.1 0 (by norm_num))
  have c0 : c [0] = 2 ^ 24 := rfl
  have c1 : c [1] = 1 / 4 := rfl
  have c2 : c [2] = -2 ^ 24 := rfl
  have r0 : (binaryFloat 23).rnd (2 ^ 24) = 2 ^ 24 := by
    show binaryRnd 23 _ = _
    simpa using binary_exact 23 1 (by norm_num) 24
  have r1 : (binaryFloat 23).rnd (1 / 4) = 1 / 4 := by
    show binaryRnd 23 _ = _
    have e : (1 / 4 : ℝ) = ((1 : ℤ) : ℝ) * 2 ^ (-2 : ℤ) := by norm_num
    rw [e]
    exact binary_exact 23 1 (by norm_num) (-2)
  have r2 : (binaryFloat 23).rnd (-2 ^ 24) = -2 ^ 24 := by
    show binaryRnd 23 _ = _
    simpa using binary_exact 23 (-1) (by norm_num) 24
  have r3 : (binaryFloat 23).rnd (2 ^ 24 + 1 / 4) = 2 ^ 24 := binary_absorb
  have rz : (binaryFloat 23).rnd 0 = 0 := Fl.rnd_zero
  have vof : ∀ a, (Fl.of (binaryFloat 23) a).val = (binaryFloat 23).rnd a := fun _ => rfl
  simp only [runTotal, gradRec, foldEntry, List.map_cons, List.map_nil, List.foldl_cons, List.foldl_nil, List.getD_cons_zero, Fl.zero_add', Fl.val_add,
    vof, c0, c1, c2, r0, r1, r2, r3, add_neg_cancel, zero_add, rz] at h
  norm_num at h

/-- The data are the gradients; the mini-batches have rounded sums. -/
noncomputable def sumRec (b : List ℕ) : Rec (Fl (binaryFloat 23)) := gradRec (b.map fun d : ℕ => (d : ℝ)).sum

theorem sumRec_within : BatchGradsWithin 0 1 (fun (d : ℕ) _ => (d : ℝ)) (fun (d : ℕ) _ => (d : ℝ)) sumRec [[1], [2]] := by
  intro b hb
  refine ⟨rfl, fun i hi => ?_⟩
  obtain rfl : i = 0 := by omega
  have h1 := binary_natCast 23 1 (by norm_num)
  have h2 := binary_natCast 23 2 (by norm_num)
  simp only [Nat.cast_one, Nat.cast_ofNat] at h1 h2
  simp only [List.mem_cons, List.not_mem_nil, or_false] at hb
  have e : ∀ g : ℝ, ((gradRec (ρ := binaryFloat 23) g).grad.getD 0 0).val = (binaryFloat 23).rnd g := fun _ => rfl
  rcases hb with rfl | rfl <;> rw [sumRec, e] <;> simp [h1, h2]

/-- `float32`: two data with gradients 1 and 2, in two mini-batches, are accepted in either order. -/
example : checkDeterministic (flClose (ρ := binaryFloat 23) (5 / 10 ^ 5) (1 / 10 ^ 6)) false true 1 ([[1], [2]].map sumRec) ([[2], [1]].map sumRec)
    (.ok 0) (.ok 0) = .ok () := by
  have h' : BatchGradsWithin 0 1 (fun (d : ℕ) _ => (d : ℝ)) (fun (d : ℕ) _ => (d : ℝ)) sumRec [[2], [1]] := fun b hb =>
    sumRec_within b (by simpa [or_comm] using hb)
  have htol : ∀ i < 1, (2 + 5 / 10 ^ 5) * (accError (binaryFloat 23) 0 [[1], [2]].length *
      ([[1], [2]].flatten.map fun d : ℕ => (fun (d : ℕ) (_ : ℕ) => (d : ℝ)) d i).sum) ≤
      1 / 10 ^ 6 + 5 / 10 ^ 5 * |([[1], [2]].flatten.map fun d : ℕ => (fun (d : ℕ) (_ : ℕ) => (d : ℝ)) d i).sum| := by
    intro i _
    norm_num [accError, binaryFloat]
  exact check_accepts_reordered (batches := [[1], [2]]) (batches' := [[2], [1]]) (by norm_num) le_rfl (fun d _ => by simp) rfl
    (List.Perm.swap _ _ _) sumRec_within h' (gradRec 0).loss (gradRec 0).loss
    rfl rfl (by rw [sub_self, abs_zero]; positivity) 0 0 (by rw [sub_self, abs_zero]; positivity) htol

end Curvlinops
