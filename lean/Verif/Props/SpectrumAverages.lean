import Verif.Spec.Spectrum
import Mathlib.Algebra.BigOperators.Field
import Mathlib.Data.List.GetD
import Mathlib.Tactic.Ring
import Mathlib.Tactic.Linarith
import Mathlib.Tactic.FieldSimp
import Mathlib.Analysis.InnerProductSpace.Spectrum

/-!
# C60, C61, C63: averages over repetitions, cached iterations, boundaries
-/

namespace Curvlinops

/-! ## C63 -/

theorem eigshIfNone_calls (eigsh : Eigsh) (which : String) (x : Option ℝ) :
    (eigshIfNone eigsh which x).2 = if x = none then [(1, which)] else [] := by
  cases x with
  | some x => rfl
  | none =>
    unfold eigshIfNone
    simp only [if_true]
    split <;> rfl

theorem eigshIfNone_some (eigsh : Eigsh) (which : String) (x : ℝ) : eigshIfNone eigsh which (some x) = (.ok x, []) := rfl

theorem eigshIfNone_none {eigsh : Eigsh} {which : String} {x : ℝ} {c : List (Nat × String)}
    (h : eigshIfNone eigsh which none = (.ok x, c)) : eigsh 1 which = .ok [x] := by
  unfold eigshIfNone at h
  simp only at h
  split at h
  · simp at h
  · simp only [Prod.mk.injEq, Except.ok.injEq] at h
    rw [← h.1]
    assumption
  · simp at h

/-- C63: a boundary given by the user is returned unchanged, a missing one is what the eigensolver returns for it. -/
theorem approximateBoundaries_result (eigsh : Eigsh) (lo hi : Option ℝ) (a b : ℝ)
    (h : (approximateBoundaries eigsh (some (lo, hi))).1 = .ok (a, b)) :
    (lo = some a ∨ lo = none ∧ eigsh 1 "SA" = .ok [a]) ∧ (hi = some b ∨ hi = none ∧ eigsh 1 "LA" = .ok [b]) := by
  unfold approximateBoundaries at h
  simp only at h
  have hval : ∀ which (x : Option ℝ) (y : ℝ) c, eigshIfNone eigsh which x = (.ok y, c) →
      x = some y ∨ x = none ∧ eigsh 1 which = .ok [y] := by
    intro which x y c hx
    cases x with
    | some x =>
      rw [eigshIfNone_some, Prod.mk.injEq] at hx
      exact Or.inl (congrArg some (Except.ok.inj hx.1))
    | none => exact Or.inr ⟨rfl, eigshIfNone_none hx⟩
  split at h
  · cases h
  · rename_i a' c1 h1
    split at h
    · cases h
    · rename_i b' c2 h2
      simp only [Except.ok.injEq, Prod.mk.injEq] at h
      obtain ⟨rfl, rfl⟩ := h
      exact ⟨hval _ _ _ _ h1, hval _ _ _ _ h2⟩

/-- C63: the eigensolver is asked only for what is missing. -/
theorem approximateBoundaries_calls (eigsh : Eigsh) (lo hi : Option ℝ) (q : Nat × String)
    (hq : q ∈ (approximateBoundaries eigsh (some (lo, hi))).2) :
    (lo = none ∧ q = (1, "SA")) ∨ (hi = none ∧ q = (1, "LA")) := by
  have c1 := eigshIfNone_calls eigsh "SA" lo
  have c2 := eigshIfNone_calls eigsh "LA" hi
  have hone : ∀ (x : Option ℝ) (w : String), q ∈ (if x = none then [(1, w)] else []) → x = none ∧ q = (1, w) := by
    intro x w hx
    split at hx
    · rename_i h
      exact ⟨h, by simpa using hx⟩
    · simp at hx
  unfold approximateBoundaries at hq
  simp only at hq
  rcases h1 : eigshIfNone eigsh "SA" lo with ⟨r1, k1⟩
  rw [h1] at hq c1
  simp only at c1
  subst c1
  cases r1 with
  | error e => exact Or.inl (hone lo "SA" hq)
  | ok a =>
    simp only at hq
    rcases h2 : eigshIfNone eigsh "LA" hi with ⟨r2, k2⟩
    rw [h2] at hq c2
    simp only at c2
    subst c2
    cases r2 with
    | error e =>
      simp only [List.mem_append] at hq
      exact hq.imp (hone lo "SA") (hone hi "LA")
    | ok b =>
      simp only [List.mem_append] at hq
      exact hq.imp (hone lo "SA") (hone hi "LA")

/-- C63: without any boundaries there is one call. -/
theorem approximateBoundaries_none (eigsh : Eigsh) : (approximateBoundaries eigsh none).2 = [(2, "BE")] ∧
    ∀ a b, (approximateBoundaries eigsh none).1 = .ok (a, b) → eigsh 2 "BE" = .ok [a, b] := by
  unfold approximateBoundaries
  simp only
  split
  · simp
  · refine ⟨rfl, fun a b h => ?_⟩
    simp only [Except.ok.injEq, Prod.mk.injEq] at h
    obtain ⟨rfl, rfl⟩ := h
    assumption
  · simp

/-- C63: if both boundaries are given, they are returned for every eigensolver, which is not called. -/
theorem approximateBoundaries_both (eigsh : Eigsh) (a b : ℝ) :
    approximateBoundaries eigsh (some (some a, some b)) = (.ok (a, b), []) := rfl

/-- C63: `approximate_boundaries_abs` returns absolute values of given boundaries or of what the eigensolver returns. -/
theorem approximateBoundariesAbs_result (eigsh : Eigsh) (boundaries : Boundaries) (a b : ℝ)
    (h : (approximateBoundariesAbs eigsh boundaries).1 = .ok (a, b)) :
    ∃ a' b', a = |a'| ∧ b = |b'| ∧
      ((boundaries.getD (none, none)).1 = some a' ∨
        (boundaries.getD (none, none)).1 = none ∧ eigsh 1 "SM" = .ok [a']) ∧
      ((boundaries.getD (none, none)).2 = some b' ∨
        (boundaries.getD (none, none)).2 = none ∧ eigsh 1 "LM" = .ok [b']) := by
  unfold approximateBoundariesAbs at h
  revert h
  rcases boundaries.getD (none, none) with ⟨lo, hi⟩
  intro h
  simp only at h ⊢
  have hval : ∀ which (x : Option ℝ) (y : ℝ) c, eigshIfNone eigsh which x = (.ok y, c) →
      x = some y ∨ x = none ∧ eigsh 1 which = .ok [y] := by
    intro which x y c hx
    cases x with
    | some x =>
      rw [eigshIfNone_some, Prod.mk.injEq] at hx
      exact Or.inl (congrArg some (Except.ok.inj hx.1))
    | none => exact Or.inr ⟨rfl, eigshIfNone_none hx⟩
  split at h
  · cases h
  · rename_i b' c1 h1
    split at h
    · cases h
    · rename_i a' c2 h2
      simp only [Except.ok.injEq, Prod.mk.injEq] at h
      exact ⟨a', b', h.1.symm, h.2.symm, hval _ _ _ _ h2, hval _ _ _ _ h1⟩

/-- C63: the eigensolver is asked only for what is missing. -/
theorem approximateBoundariesAbs_calls (eigsh : Eigsh) (boundaries : Boundaries) (q : Nat × String)
    (hq : q ∈ (approximateBoundariesAbs eigsh boundaries).2) :
    ((boundaries.getD (none, none)).1 = none ∧ q = (1, "SM")) ∨
    ((boundaries.getD (none, none)).2 = none ∧ q = (1, "LM")) := by
  have hone : ∀ (x : Option ℝ) (w : String), q ∈ (if x = none then [(1, w)] else []) → x = none ∧ q = (1, w) := by
    intro x w hx
    split at hx
    · rename_i h
      exact ⟨h, by simpa using hx⟩
    · simp at hx
  unfold approximateBoundariesAbs at hq
  revert hq
  rcases boundaries.getD (none, none) with ⟨lo, hi⟩
  intro hq
  have c1 := eigshIfNone_calls eigsh "LM" hi
  have c2 := eigshIfNone_calls eigsh "SM" lo
  simp only at hq
  rcases h1 : eigshIfNone eigsh "LM" hi with ⟨r1, k1⟩
  rw [h1] at hq c1
  simp only at c1
  subst c1
  cases r1 with
  | error e => exact Or.inr (hone hi "LM" hq)
  | ok a =>
    simp only at hq
    rcases h2 : eigshIfNone eigsh "SM" lo with ⟨r2, k2⟩
    rw [h2] at hq c2
    simp only at c2
    subst c2
    cases r2 with
    | error e =>
      simp only [List.mem_append] at hq
      exact (hq.imp (hone hi "LM") (hone lo "SM")).symm
    | ok b =>
      simp only [List.mem_append] at hq
      exact (hq.imp (hone hi "LM") (hone lo "SM")).symm

/-- The contract of `eigsh` in exact arithmetic, for an operator with the given eigenvalues. -/
structure EigshContract (eigsh : Eigsh) (spectrum : Set ℝ) : Prop where
  be : ∀ l, eigsh 2 "BE" = .ok l → ∃ a b, l = [a, b] ∧ IsLeast spectrum a ∧ IsGreatest spectrum b
  sa : ∀ l, eigsh 1 "SA" = .ok l → ∃ a, l = [a] ∧ IsLeast spectrum a
  la : ∀ l, eigsh 1 "LA" = .ok l → ∃ b, l = [b] ∧ IsGreatest spectrum b
  lm : ∀ l, eigsh 1 "LM" = .ok l → ∃ b, l = [b] ∧ b ∈ spectrum ∧ ∀ μ ∈ spectrum, |μ| ≤ |b|
  sm : ∀ l, eigsh 1 "SM" = .ok l → ∃ a, l = [a] ∧ a ∈ spectrum ∧ ∀ μ ∈ spectrum, |a| ≤ |μ|

/-- C63: the boundaries are returned exactly if the eigensolver returns every missing one. -/
theorem approximateBoundaries_ok_iff (eigsh : Eigsh) (lo hi : Option ℝ) (a b : ℝ) :
    (approximateBoundaries eigsh (some (lo, hi))).1 = .ok (a, b) ↔
      (lo = some a ∨ lo = none ∧ eigsh 1 "SA" = .ok [a]) ∧ (hi = some b ∨ hi = none ∧ eigsh 1 "LA" = .ok [b]) := by
  refine ⟨approximateBoundaries_result eigsh lo hi a b, ?_⟩
  rintro ⟨rfl | ⟨rfl, h1⟩, rfl | ⟨rfl, h2⟩⟩ <;> simp [approximateBoundaries, eigshIfNone, *]

/-- C63: without any boundaries, exactly the two values that the eigensolver returns. -/
theorem approximateBoundaries_none_iff (eigsh : Eigsh) (a b : ℝ) :
    (approximateBoundaries eigsh none).1 = .ok (a, b) ↔ eigsh 2 "BE" = .ok [a, b] := by
  refine ⟨(approximateBoundaries_none eigsh).2 a b, fun h => ?_⟩
  simp [approximateBoundaries, h]

/-- C63: the absolute values are returned exactly if the eigensolver returns every missing value. -/
theorem approximateBoundariesAbs_ok_iff (eigsh : Eigsh) (boundaries : Boundaries) (a b : ℝ) :
    (approximateBoundariesAbs eigsh boundaries).1 = .ok (a, b) ↔
    ∃ a' b', a = |a'| ∧ b = |b'| ∧
      ((boundaries.getD (none, none)).1 = some a' ∨
        (boundaries.getD (none, none)).1 = none ∧ eigsh 1 "SM" = .ok [a']) ∧
      ((boundaries.getD (none, none)).2 = some b' ∨
        (boundaries.getD (none, none)).2 = none ∧ eigsh 1 "LM" = .ok [b']) := by
  refine ⟨approximateBoundariesAbs_result eigsh boundaries a b, ?_⟩
  rintro ⟨a', b', rfl, rfl, h1, h2⟩
  unfold approximateBoundariesAbs
  generalize boundaries.getD (none, none) = p at h1 h2
  obtain ⟨lo, hi⟩ := p
  simp only at h1 h2
  rcases h1 with rfl | ⟨rfl, h1⟩ <;> rcases h2 with rfl | ⟨rfl, h2⟩ <;> simp [eigshIfNone, *]

/-- C63: with an exact eigensolver and correct given boundaries, the results enclose the spectrum. -/
theorem approximateBoundaries_enclose (eigsh : Eigsh) (spectrum : Set ℝ) (hc : EigshContract eigsh spectrum)
    (boundaries : Boundaries) (hlo : ∀ a hi, boundaries = some (some a, hi) → ∀ μ ∈ spectrum, a ≤ μ)
    (hhi : ∀ lo b, boundaries = some (lo, some b) → ∀ μ ∈ spectrum, μ ≤ b) (a b : ℝ)
    (h : (approximateBoundaries eigsh boundaries).1 = .ok (a, b)) : ∀ μ ∈ spectrum, a ≤ μ ∧ μ ≤ b := by
  cases boundaries with
  | none =>
    obtain ⟨a', b', hl, h1, h2⟩ := hc.be _ ((approximateBoundaries_none eigsh).2 a b h)
    simp only [List.cons.injEq, and_true] at hl
    obtain ⟨rfl, rfl⟩ := hl
    exact fun μ hμ => ⟨h1.2 hμ, h2.2 hμ⟩
  | some p =>
    obtain ⟨lo, hi⟩ := p
    obtain ⟨h1, h2⟩ := approximateBoundaries_result eigsh lo hi a b h
    intro μ hμ
    constructor
    · rcases h1 with rfl | ⟨-, h1⟩
      · exact hlo a hi rfl μ hμ
      · obtain ⟨a', hl, h1⟩ := hc.sa _ h1
        simp only [List.cons.injEq, and_true] at hl
        exact hl ▸ h1.2 hμ
    · rcases h2 with rfl | ⟨-, h2⟩
      · exact hhi lo b rfl μ hμ
      · obtain ⟨b', hl, h2⟩ := hc.la _ h2
        simp only [List.cons.injEq, and_true] at hl
        exact hl ▸ h2.2 hμ

/-- C63: the results of `approximate_boundaries_abs` enclose the absolute values of the spectrum. -/
theorem approximateBoundariesAbs_enclose (eigsh : Eigsh) (spectrum : Set ℝ) (hc : EigshContract eigsh spectrum)
    (boundaries : Boundaries) (hlo : ∀ a hi, boundaries = some (some a, hi) → ∀ μ ∈ spectrum, |a| ≤ |μ|)
    (hhi : ∀ lo b, boundaries = some (lo, some b) → ∀ μ ∈ spectrum, |μ| ≤ |b|) (a b : ℝ)
    (h : (approximateBoundariesAbs eigsh boundaries).1 = .ok (a, b)) : ∀ μ ∈ spectrum, a ≤ |μ| ∧ |μ| ≤ b := by
  obtain ⟨a', b', rfl, rfl, h1, h2⟩ := approximateBoundariesAbs_result eigsh boundaries a b h
  intro μ hμ
  constructor
  · rcases h1 with h1 | ⟨-, h1⟩
    · cases boundaries with
      | none => cases h1
      | some p =>
        obtain ⟨lo, hi⟩ := p
        simp only [Option.getD_some] at h1
        subst h1
        exact hlo a' hi rfl μ hμ
    · obtain ⟨x, hl, -, h1⟩ := hc.sm _ h1
      simp only [List.cons.injEq, and_true] at hl
      exact hl ▸ h1 μ hμ
  · rcases h2 with h2 | ⟨-, h2⟩
    · cases boundaries with
      | none => cases h2
      | some p =>
        obtain ⟨lo, hi⟩ := p
        simp only [Option.getD_some] at h2
        subst h2
        exact hhi lo b' rfl μ hμ
    · obtain ⟨x, hl, -, h2⟩ := hc.lm _ h2
      simp only [List.cons.injEq, and_true] at hl
      exact hl ▸ h2 μ hμ

/-- The eigensolver is asked for the missing lower boundary only. -/
example (eigsh : Eigsh) (h : eigsh 1 "SA" = .ok [-2]) :
    approximateBoundaries eigsh (some (none, some 7)) = (.ok (-2, 7), [(1, "SA")]) := by
  simp [approximateBoundaries, eigshIfNone, h]

/-- Negative given boundaries are returned as absolute values by `approximate_boundaries_abs`. -/
example (eigsh : Eigsh) (h : eigsh 1 "LM" = .ok [-5]) :
    approximateBoundariesAbs eigsh (some (some (-1), none)) = (.ok (1, 5), [(1, "LM")]) := by
  simp [approximateBoundariesAbs, eigshIfNone, h]

/-! ## C60 -/

theorem repeatLoop_aux (src : LanczosSource) (fromIter : LanczosIter → Py (List ℝ × List ℝ)) (P : Nat)
    (hlen : ∀ it r, fromIter it = .ok r → r.2.length = P) (left : Nat) :
    ∀ (calls n : Nat) (grid : Option (List ℝ)) (avg : List ℝ), avg.length = P → ∀ g a c,
      repeatLoop src fromIter calls n grid avg left = (.ok (g, a), c) →
      (left = 0 → grid = some g) ∧ c = calls + left ∧ a.length = P ∧
      ∃ (its : Nat → LanczosIter) (res : Nat → List ℝ × List ℝ),
        (∀ i < left, src (calls + i) = .ok (its i) ∧ fromIter (its i) = .ok (res i)) ∧
        (∀ k, left = k + 1 → g = (res k).1) ∧
        ∀ p < P, a.getD p 0 * ((n : ℝ) + left) = avg.getD p 0 * n + ∑ i ∈ Finset.range left, (res i).2.getD p 0 := by
  induction left with
  | zero =>
    intro calls n grid avg hP g a c h
    cases grid with
    | none => simp [repeatLoop] at h
    | some g' =>
      simp only [repeatLoop, Prod.mk.injEq, Except.ok.injEq] at h
      obtain ⟨⟨rfl, rfl⟩, rfl⟩ := h
      exact ⟨fun _ => rfl, rfl, hP, fun _ => ⟨0, fun _ => 0, fun _ _ => 0⟩, fun _ => ([], []), fun i hi => absurd hi (by omega),
        fun k hk => absurd hk (by omega), fun p _ => by simp⟩
  | succ left ih =>
    intro calls n grid avg hP g a c h
    rw [repeatLoop] at h
    cases hs : src calls with
    | error e => simp [hs] at h
    | ok it =>
      rw [hs] at h
      simp only at h
      cases hf : fromIter it with
      | error e => simp [hf] at h
      | ok r =>
        obtain ⟨gr, de⟩ := r
        rw [hf] at h
        simp only at h
        have hd : de.length = P := hlen it _ hf
        obtain ⟨h0, hc, ha, its, res, hir, hg, hv⟩ := ih _ _ _ _ (by simp [hP, hd]) g a c h
        refine ⟨fun h => absurd h (by omega), by omega, ha, fun i => if i = 0 then it else its (i - 1),
          fun i => if i = 0 then (gr, de) else res (i - 1), ?_, ?_, ?_⟩
        · intro i hi
          cases i with
          | zero => exact ⟨hs, hf⟩
          | succ i =>
            have := hir i (by omega)
            rw [show calls + 1 + i = calls + (i + 1) by omega] at this
            exact this
        · intro k hk
          cases k with
          | zero =>
            have := h0 (by omega)
            exact (Option.some.inj this).symm
          | succ k => exact hg k (by omega)
        · intro p hp
          have hvp := hv p hp
          have hz : (List.zipWith (fun a r => (1 - 1 / ((n : ℝ) + 1)) * a + r / ((n : ℝ) + 1)) avg de).getD p 0 =
              (1 - 1 / ((n : ℝ) + 1)) * avg.getD p 0 + de.getD p 0 / ((n : ℝ) + 1) := by
            rw [List.getD_eq_getElem _ _ (by simp [hP, hd, hp]), List.getD_eq_getElem _ _ (hP ▸ hp),
              List.getD_eq_getElem _ _ (hd ▸ hp), List.getElem_zipWith]
          rw [hz] at hvp
          rw [Finset.sum_range_succ']
          simp only [Nat.add_one_ne_zero, if_false, Nat.add_sub_cancel, if_true]
          have hn : (n : ℝ) + 1 ≠ 0 := by positivity
          push_cast at hvp ⊢
          have e : a.getD p 0 * ((n : ℝ) + (left + 1)) = a.getD p 0 * ((n : ℝ) + 1 + left) := by ring
          rw [e, hvp]
          field_simp
          ring

/-- C60: what the loop over the repetitions returns is the mean of the single densities. -/
theorem repeatLoop_mean (src : LanczosSource) (fromIter : LanczosIter → Py (List ℝ × List ℝ)) (P : Nat)
    (hlen : ∀ it r, fromIter it = .ok r → r.2.length = P) (calls n : Nat) (g a : List ℝ) (c : Nat)
    (h : repeatLoop src fromIter calls 0 none (List.replicate P 0) n = (.ok (g, a), c)) :
    0 < n ∧ c = calls + n ∧ a.length = P ∧
    ∃ (its : Nat → LanczosIter) (res : Nat → List ℝ × List ℝ),
      (∀ i < n, src (calls + i) = .ok (its i) ∧ fromIter (its i) = .ok (res i)) ∧ g = (res (n - 1)).1 ∧
      ∀ p < P, a.getD p 0 = (∑ i ∈ Finset.range n, (res i).2.getD p 0) / n := by
  obtain ⟨h0, hc, ha, its, res, hir, hg, hv⟩ := repeatLoop_aux src fromIter P hlen n calls 0 none _ (by simp) g a c h
  have hn : 0 < n := by
    rcases Nat.eq_zero_or_pos n with rfl | hn
    · cases h0 rfl
    · exact hn
  refine ⟨hn, hc, ha, its, res, hir, hg (n - 1) (by omega), fun p hp => ?_⟩
  have := hv p hp
  have hn' : (n : ℝ) ≠ 0 := by exact_mod_cast hn.ne'
  rw [Nat.cast_zero, zero_add, mul_zero, zero_add] at this
  rw [eq_div_iff hn', this]

/-- The converse: if all iterations and single densities are available, the loop returns. -/
theorem repeatLoop_total (src : LanczosSource) (fromIter : LanczosIter → Py (List ℝ × List ℝ)) (left : Nat) :
    ∀ (calls n : Nat) (grid : Option (List ℝ)) (avg : List ℝ), (0 < left ∨ grid ≠ none) →
      (∀ i < left, ∃ it r, src (calls + i) = .ok it ∧ fromIter it = .ok r) →
      ∃ r, repeatLoop src fromIter calls n grid avg left = (.ok r, calls + left) := by
  induction left with
  | zero =>
    intro calls n grid avg h _
    cases grid with
    | none => exact absurd rfl (h.resolve_left (by omega))
    | some g => exact ⟨_, rfl⟩
  | succ left ih =>
    intro calls n grid avg _ hi
    obtain ⟨it, r, h1, h2⟩ := hi 0 (by omega)
    rw [repeatLoop]
    simp only [Nat.add_zero] at h1
    rw [h1]
    simp only [h2]
    obtain ⟨r', hr'⟩ := ih (calls + 1) (n + 1) (some r.1)
      (List.zipWith (fun a r => (1 - 1 / ((n : ℝ) + 1)) * a + r / ((n : ℝ) + 1)) avg r.2) (Or.inr (by simp)) (fun i hi' => by
        obtain ⟨it, r, h⟩ := hi (i + 1) (by omega)
        rw [show calls + 1 + i = calls + (i + 1) by omega]
        exact ⟨it, r, h⟩)
    refine ⟨r', ?_⟩
    rw [hr']
    congr 1
    omega

/-- No repetitions: `UnboundLocalError`, because `grid` is assigned in the loop. -/
theorem repeatLoop_zero (src : LanczosSource) (fromIter : LanczosIter → Py (List ℝ × List ℝ)) (calls : Nat) (avg : List ℝ) :
    repeatLoop src fromIter calls 0 none avg 0 = (.error .unboundLocalError, calls) := rfl

theorem spectrumFromIter_ok {it : LanczosIter} {b : ℝ × ℝ} {P : Nat} {kappa margin : ℝ} {r : List ℝ × List ℝ}
    (h : spectrumFromIter it b P kappa margin = .ok r) :
    it.ncv ≠ 1 ∧ r.1 = linspace (b.1 - margin * (b.2 - b.1)) (b.2 + margin * (b.2 - b.1)) P ∧ r.2.length = P := by
  unfold spectrumFromIter bumpWidth at h
  simp only [bind, Except.bind] at h
  by_cases hn : it.ncv = 1
  · simp [hn] at h
  · rw [if_neg hn] at h
    simp only [Except.ok.injEq] at h
    subst h
    exact ⟨hn, rfl, by simp [linspace]⟩

theorem logSpectrumFromIter_ok {it : LanczosIter} {b : ℝ × ℝ} {P : Nat} {kappa margin epsilon : ℝ} {r : List ℝ × List ℝ}
    (h : logSpectrumFromIter it b P kappa margin epsilon = .ok r) :
    it.ncv ≠ 1 ∧ r.2.length = P ∧
      ∀ it' r', logSpectrumFromIter it' b P kappa margin epsilon = .ok r' → r'.1 = r.1 := by
  unfold logSpectrumFromIter bumpWidth at h ⊢
  simp only [bind, Except.bind] at h ⊢
  by_cases hn : it.ncv = 1
  · simp [hn] at h
  · rw [if_neg hn] at h
    simp only [Except.ok.injEq] at h
    subst h
    refine ⟨hn, by simp [linspace], fun it' r' h' => ?_⟩
    by_cases hn' : it'.ncv = 1
    · simp [hn'] at h'
    · rw [if_neg hn'] at h'
      simp only [Except.ok.injEq] at h'
      subst h'
      rfl

/-- C60 for `lanczos_approximate_spectrum`. -/
theorem lanczosSpectrum_mean (eigsh : Eigsh) (src : LanczosSource) (calls P : Nat) (numRepeats : Int) (kappa : ℝ)
    (boundaries : Boundaries) (margin : ℝ) (g a : List ℝ) (c : Nat)
    (h : lanczosSpectrum eigsh src calls P numRepeats kappa boundaries margin = (.ok (g, a), c)) :
    ∃ b : ℝ × ℝ, (approximateBoundaries eigsh boundaries).1 = .ok b ∧
    ∃ n : Nat, numRepeats = n ∧ 0 < n ∧ c = calls + n ∧ a.length = P ∧
    ∃ (its : Nat → LanczosIter) (densities : Nat → List ℝ),
      (∀ i < n, src (calls + i) = .ok (its i) ∧ spectrumFromIter (its i) b P kappa margin = .ok (g, densities i)) ∧
      ∀ p < P, a.getD p 0 = (∑ i ∈ Finset.range n, (densities i).getD p 0) / n := by
  unfold lanczosSpectrum at h
  split at h
  · simp at h
  rename_i b hb
  obtain ⟨hn, hc, ha, its, res, hir, hg, hv⟩ := repeatLoop_mean src _ P (fun it r hr => (spectrumFromIter_ok hr).2.2) _ _ _ _ _ h
  refine ⟨b, hb, numRepeats.toNat, by omega, hn, hc, ha, its, fun i => (res i).2, fun i hi => ⟨(hir i hi).1, ?_⟩, hv⟩
  have h1 := (spectrumFromIter_ok (hir i hi).2).2.1
  have h2 := (spectrumFromIter_ok (hir (numRepeats.toNat - 1) (by omega)).2).2.1
  rw [(hir i hi).2, hg, h2, ← h1]

/-- C60 for `lanczos_approximate_log_spectrum`. -/
theorem lanczosLogSpectrum_mean (eigsh : Eigsh) (src : LanczosSource) (calls P : Nat) (numRepeats : Int) (kappa : ℝ)
    (boundaries : Boundaries) (margin epsilon : ℝ) (g a : List ℝ) (c : Nat)
    (h : lanczosLogSpectrum eigsh src calls P numRepeats kappa boundaries margin epsilon = (.ok (g, a), c)) :
    ∃ b : ℝ × ℝ, (approximateBoundariesAbs eigsh boundaries).1 = .ok b ∧
    ∃ n : Nat, numRepeats = n ∧ 0 < n ∧ c = calls + n ∧ a.length = P ∧
    ∃ (its : Nat → LanczosIter) (densities : Nat → List ℝ),
      (∀ i < n, src (calls + i) = .ok (its i) ∧ logSpectrumFromIter (its i) b P kappa margin epsilon = .ok (g, densities i)) ∧
      ∀ p < P, a.getD p 0 = (∑ i ∈ Finset.range n, (densities i).getD p 0) / n := by
  unfold lanczosLogSpectrum at h
  split at h
  · simp at h
  rename_i b hb
  obtain ⟨hn, hc, ha, its, res, hir, hg, hv⟩ :=
    repeatLoop_mean src _ P (fun it r hr => (logSpectrumFromIter_ok hr).2.1) _ _ _ _ _ h
  refine ⟨b, hb, numRepeats.toNat, by omega, hn, hc, ha, its, fun i => (res i).2, fun i hi => ⟨(hir i hi).1, ?_⟩, hv⟩
  have h1 := (logSpectrumFromIter_ok (hir (numRepeats.toNat - 1) (by omega)).2).2.2 _ _ (hir i hi).2
  rw [(hir i hi).2, hg, ← h1]

/-- The converse: `lanczos_approximate_spectrum` returns if the boundaries and enough Lanczos iterations of more than one
vector are available. -/
theorem lanczosSpectrum_total (eigsh : Eigsh) (src : LanczosSource) (calls P : Nat) (n : Nat) (hn : 0 < n) (kappa : ℝ)
    (boundaries : Boundaries) (margin : ℝ) (b : ℝ × ℝ) (hb : (approximateBoundaries eigsh boundaries).1 = .ok b)
    (hs : ∀ i < n, ∃ it, src (calls + i) = .ok it ∧ it.ncv ≠ 1) :
    ∃ r, lanczosSpectrum eigsh src calls P n kappa boundaries margin = (.ok r, calls + n) := by
  unfold lanczosSpectrum
  rw [hb]
  refine repeatLoop_total src _ n calls 0 none _ (Or.inl hn) fun i hi => ?_
  obtain ⟨it, h1, h2⟩ := hs i hi
  have hr : ∃ r, spectrumFromIter it b P kappa margin = .ok r := by
    unfold spectrumFromIter bumpWidth
    rw [if_neg h2]
    exact ⟨_, rfl⟩
  obtain ⟨r, hr⟩ := hr
  exact ⟨it, r, h1, hr⟩

/-- `num_repeats <= 0` raises `UnboundLocalError`. -/
theorem lanczosSpectrum_nonpos (eigsh : Eigsh) (src : LanczosSource) (calls P : Nat) (n : Int) (hn : n ≤ 0) (kappa : ℝ)
    (boundaries : Boundaries) (margin : ℝ) (b : ℝ × ℝ) (hb : (approximateBoundaries eigsh boundaries).1 = .ok b) :
    lanczosSpectrum eigsh src calls P n kappa boundaries margin = (.error .unboundLocalError, calls) := by
  unfold lanczosSpectrum
  rw [hb, Int.toNat_of_nonpos hn]
  rfl

/-- A single Lanczos vector: `ZeroDivisionError`. -/
theorem spectrumFromIter_one (it : LanczosIter) (h : it.ncv = 1) (b : ℝ × ℝ) (P : Nat) (kappa margin : ℝ) :
    spectrumFromIter it b P kappa margin = .error .zeroDivisionError := by
  unfold spectrumFromIter bumpWidth
  rw [if_pos h]
  rfl

/-! ## C61 -/

/-- What the loop of `_get_lanczos_iters` does: it appends the outcomes of calls in order, until there are enough or a call
raises. -/
theorem drawIters_spec (src : LanczosSource) (missing : Nat) (st : SpectrumCache) :
    ∃ new : List LanczosIter, (drawIters src missing st).2.iters = st.iters ++ new ∧
      (∀ i (hi : i < new.length), src (st.calls + i) = .ok new[i]) ∧
      ((drawIters src missing st).1 = .ok () ∧ new.length = missing ∧
          (drawIters src missing st).2.calls = st.calls + missing ∨
        ∃ e, (drawIters src missing st).1 = .error e ∧ new.length < missing ∧ src (st.calls + new.length) = .error e ∧
          (drawIters src missing st).2.calls = st.calls + new.length + 1) := by
  induction missing generalizing st with
  | zero => exact ⟨[], by simp [drawIters], fun i hi => absurd hi (by simp), Or.inl ⟨rfl, rfl, rfl⟩⟩
  | succ missing ih =>
    rw [drawIters]
    cases hs : src st.calls with
    | error e => exact ⟨[], by simp, fun i hi => absurd hi (by simp), Or.inr ⟨e, rfl, by simp, hs, rfl⟩⟩
    | ok it =>
      simp only
      obtain ⟨new, h1, h2, h3⟩ := ih ⟨st.iters ++ [it], st.calls + 1⟩
      refine ⟨it :: new, by rw [h1]; simp, ?_, ?_⟩
      · intro i hi
        cases i with
        | zero => exact hs
        | succ i =>
          have := h2 i (by simpa using hi)
          rw [show st.calls + 1 + i = st.calls + (i + 1) by omega] at this
          simpa using this
      · rcases h3 with ⟨a, b, c⟩ | ⟨e, a, b, c, f⟩
        · exact Or.inl ⟨a, by simp [b], by rw [c]; simp only; omega⟩
        · refine Or.inr ⟨e, a, by simpa using b, ?_, ?_⟩
          · rw [show st.calls + 1 + new.length = st.calls + (it :: new).length by simp; omega] at c
            exact c
          · rw [f]
            simp
            omega

/-- C61: a request for `n` iterations returns the first `n` cached ones; it draws as many as are missing, none if there are
enough. If a draw raises, so does the request, and the iterations drawn before are kept. -/
theorem getLanczosIters_spec (src : LanczosSource) (st : SpectrumCache) (n : Nat) :
    ∃ new : List LanczosIter, (getLanczosIters src st n).2.iters = st.iters ++ new ∧
      (∀ i (hi : i < new.length), src (st.calls + i) = .ok new[i]) ∧
      ((getLanczosIters src st n).1 = .ok ((st.iters ++ new).take n) ∧ n ≤ (st.iters ++ new).length ∧
          new.length = n - st.iters.length ∧ (getLanczosIters src st n).2.calls = st.calls + (n - st.iters.length) ∨
        ∃ e, (getLanczosIters src st n).1 = .error e ∧ (st.iters ++ new).length < n ∧
          src (st.calls + new.length) = .error e ∧ (getLanczosIters src st n).2.calls = st.calls + new.length + 1) := by
  unfold getLanczosIters
  have hm : ((n : Int) - st.iters.length).toNat = n - st.iters.length := by omega
  rw [hm]
  obtain ⟨new, h1, h2, h3⟩ := drawIters_spec src (n - st.iters.length) st
  rcases hd : drawIters src (n - st.iters.length) st with ⟨r, st'⟩
  rw [hd] at h1 h3
  simp only at h1 h3
  rcases h3 with ⟨a, b, c⟩ | ⟨e, a, b, c, f⟩
  · subst a
    refine ⟨new, h1, h2, Or.inl ⟨?_, by simp; omega, b, c⟩⟩
    simp [sliceTo, h1]
  · subst a
    exact ⟨new, h1, h2, Or.inr ⟨e, rfl, by simp; omega, c, f⟩⟩

/-- What happens to the cache over time: requests of this object, and calls to `fast_lanczos` by others. -/
inductive CacheEvent
  | request (n : Int)
  | others (calls : Nat)

/-- The state after an event. -/
def CacheEvent.run (src : LanczosSource) (st : SpectrumCache) : CacheEvent → SpectrumCache
  | .request n => (getLanczosIters src st n).2
  | .others k => ⟨st.iters, st.calls + k⟩

/-- C61: cached iterations are never changed or removed, in any sequence of events. -/
theorem cache_stable (src : LanczosSource) (st : SpectrumCache) (events : List CacheEvent) :
    st.iters <+: (events.foldl (CacheEvent.run src) st).iters := by
  induction events generalizing st with
  | nil => exact List.prefix_rfl
  | cons e events ih =>
    refine List.IsPrefix.trans ?_ (ih _)
    cases e with
    | others k => exact List.prefix_rfl
    | request n =>
      unfold CacheEvent.run getLanczosIters
      obtain ⟨new, h1, -, -⟩ := drawIters_spec src (n - st.iters.length).toNat st
      rcases hd : drawIters src (n - st.iters.length).toNat st with ⟨r, st'⟩
      rw [hd] at h1
      simp only at h1
      simp only [hd]
      cases r with
      | error e => simp only [h1]; exact List.prefix_append _ _
      | ok u => simp only [h1]; exact List.prefix_append _ _

/-- C61: all requests, in whatever order, see the same iterations: a request for `m` iterations after any sequence of
events returns the first `m` of those that a later request for `n ≥ m` returns. -/
theorem cache_consistent (src : LanczosSource) (st : SpectrumCache) (events : List CacheEvent) (m n : Nat)
    (l l' : List LanczosIter) (h : (getLanczosIters src st m).1 = .ok l)
    (h' : (getLanczosIters src (events.foldl (CacheEvent.run src) (getLanczosIters src st m).2) n).1 = .ok l') :
    l.length = m ∧ l'.length = n ∧ l.take n = l'.take m := by
  obtain ⟨new, h1, -, h3⟩ := getLanczosIters_spec src st m
  obtain ⟨new', h1', -, h3'⟩ := getLanczosIters_spec src (events.foldl (CacheEvent.run src) (getLanczosIters src st m).2) n
  rw [h] at h3
  rw [h'] at h3'
  rcases h3 with ⟨a, b, -⟩ | ⟨e, a, -⟩
  swap
  · cases a
  rcases h3' with ⟨a', b', -⟩ | ⟨e, a', -⟩
  swap
  · cases a'
  simp only [Except.ok.injEq] at a a'
  subst a a'
  obtain ⟨t, ht⟩ := cache_stable src (getLanczosIters src st m).2 events
  rw [← ht, h1] at b' ⊢
  refine ⟨by simpa using b, by simpa using b', ?_⟩
  rw [List.take_take, List.take_take, List.append_assoc (st.iters ++ new), Nat.min_comm n m,
    List.take_append_of_le_length (l₁ := st.iters ++ new) (by omega)]

/-! ## C60 for the cached classes -/

theorem mapM_ok {β γ : Type} (f : β → Py γ) (l : List β) (r : List γ) (h : l.mapM f = .ok r) :
    r.length = l.length ∧ ∀ i (hi : i < l.length) (hr : i < r.length), f l[i] = .ok r[i] := by
  induction l generalizing r with
  | nil =>
    simp only [List.mapM_nil, pure, Except.pure, Except.ok.injEq] at h
    subst h
    exact ⟨rfl, fun i hi => absurd hi (by simp)⟩
  | cons x l ih =>
    rw [List.mapM_cons] at h
    cases hx : f x with
    | error e => rw [hx] at h; cases h
    | ok y =>
      cases hl : l.mapM f with
      | error e => rw [hx, hl] at h; cases h
      | ok ys =>
        rw [hx, hl] at h
        simp only [bind, Except.bind, pure, Except.pure, Except.ok.injEq] at h
        subst h
        obtain ⟨h1, h2⟩ := ih ys hl
        refine ⟨by simp [h1], fun i hi hr => ?_⟩
        cases i with
        | zero => exact hx
        | succ i => exact h2 i (by simpa using hi) (by simpa using hr)

theorem mapM_total {β γ : Type} (f : β → Py γ) (l : List β) (h : ∀ x ∈ l, ∃ y, f x = .ok y) :
    ∃ r, l.mapM f = .ok r := by
  induction l with
  | nil => exact ⟨[], rfl⟩
  | cons x l ih =>
    obtain ⟨y, hy⟩ := h x (by simp)
    obtain ⟨ys, hys⟩ := ih fun z hz => h z (by simp [hz])
    refine ⟨y :: ys, ?_⟩
    rw [List.mapM_cons, hy, hys]
    rfl

theorem foldl_zipWith_add (P : Nat) (ls : List (List ℝ)) (hls : ∀ l ∈ ls, l.length = P) (x : List ℝ) (hx : x.length = P) :
    (ls.foldl (List.zipWith (· + ·)) x).length = P ∧
      ∀ p < P, (ls.foldl (List.zipWith (· + ·)) x).getD p 0 = x.getD p 0 + (ls.map fun l => l.getD p 0).sum := by
  induction ls generalizing x with
  | nil => exact ⟨hx, fun p _ => by simp⟩
  | cons l ls ih =>
    have hl := hls l (by simp)
    obtain ⟨h1, h2⟩ := ih (fun z hz => hls z (by simp [hz])) (List.zipWith (· + ·) x l) (by simp [hx, hl])
    refine ⟨h1, fun p hp => ?_⟩
    have h2 := h2 p hp
    simp only [List.foldl_cons]
    rw [h2, List.getD_eq_getElem (List.zipWith (· + ·) x l) _ (by simp [hx, hl, hp]), List.getElem_zipWith,
      List.map_cons, List.sum_cons, List.getD_eq_getElem _ _ (hx ▸ hp), List.getD_eq_getElem l _ (hl ▸ hp), add_assoc]

/-- C60: the cached classes return the mean of the densities of the first cached iterations. -/
theorem cachedSpectrum_mean (src : LanczosSource) (fromIter : LanczosIter → Py (List ℝ × List ℝ)) (P : Nat)
    (hlen : ∀ it r, fromIter it = .ok r → r.2.length = P) (st : SpectrumCache) (n : Nat) (g a : List ℝ) (st' : SpectrumCache)
    (h : cachedSpectrum src fromIter st n = (.ok (g, a), st')) :
    0 < n ∧ n ≤ st'.iters.length ∧ a.length = P ∧ (getLanczosIters src st n) = (.ok (st'.iters.take n), st') ∧
    ∃ res : Nat → List ℝ × List ℝ,
      (∀ i (_ : i < n) (hl : i < st'.iters.length), fromIter st'.iters[i] = .ok (res i)) ∧ g = (res 0).1 ∧
      ∀ p < P, a.getD p 0 = (∑ i ∈ Finset.range n, (res i).2.getD p 0) / n := by
  unfold cachedSpectrum at h
  obtain ⟨new, h1, -, h3⟩ := getLanczosIters_spec src st n
  rcases hg : getLanczosIters src st n with ⟨r, st1⟩
  rw [hg] at h h1 h3
  simp only at h1 h3
  rcases h3 with ⟨rfl, b, -⟩ | ⟨e, rfl, -⟩
  swap
  · simp at h
  simp only at h
  cases hm : ((st.iters ++ new).take n).mapM fromIter with
  | error e => simp [hm] at h
  | ok rs =>
    rw [hm] at h
    cases rs with
    | nil => simp at h
    | cons s ss =>
      simp only [Prod.mk.injEq, Except.ok.injEq] at h
      obtain ⟨⟨rfl, rfl⟩, rfl⟩ := h
      obtain ⟨m1, m2⟩ := mapM_ok _ _ _ hm
      have hlen' : (s :: ss).length = n := by
        rw [m1, List.length_take]
        omega
      have hall : ∀ i (hi : i < n), fromIter ((st.iters ++ new)[i]'(by omega)) = .ok ((s :: ss)[i]'(by omega)) := by
        intro i hi
        have := m2 i (by rw [List.length_take]; omega) (by omega)
        simpa only [List.getElem_take] using this
      have hP : ∀ l ∈ (s :: ss), l.2.length = P := by
        intro l hl
        obtain ⟨i, hi, rfl⟩ := List.getElem_of_mem hl
        exact hlen _ _ (hall i (by omega))
      obtain ⟨f1, f2⟩ := foldl_zipWith_add P (ss.map Prod.snd) (by
        intro l hl
        obtain ⟨x, hx, rfl⟩ := List.mem_map.mp hl
        exact hP x (by simp [hx])) s.2 (hP s (by simp))
      refine ⟨by simp at hlen'; omega, by rw [h1]; omega, by simpa using f1, by rw [h1], fun i => (s :: ss).getD i ([], []),
        ?_, rfl, ?_⟩
      · intro i hi hl
        show fromIter st1.iters[i] = .ok ((s :: ss).getD i ([], []))
        rw [List.getD_eq_getElem _ _ (by omega)]
        simp only [h1]
        exact hall i hi
      · intro p hp
        rw [List.getD_eq_getElem _ _ (by simpa [f1] using hp), List.getElem_map, ← List.getD_eq_getElem _ (0 : ℝ), f2 p hp]
        congr 1
        rw [← hlen', List.length_cons, Finset.sum_range_succ', List.map_map, add_comm]
        congr 1
        simp only [List.getD_cons_succ]
        rw [Finset.sum_range, ← List.sum_ofFn]
        congr 1
        refine List.ext_getElem (by simp) fun i hi hi' => ?_
        simp only [List.length_map] at hi
        simp

/-- No repetitions: `IndexError`. -/
theorem cachedSpectrum_zero (src : LanczosSource) (fromIter : LanczosIter → Py (List ℝ × List ℝ)) (st : SpectrumCache) :
    cachedSpectrum src fromIter st 0 = (.error .indexError, st) := by
  have hz : ((0 : Int) - st.iters.length).toNat = 0 := by omega
  unfold cachedSpectrum getLanczosIters
  rw [hz]
  simp only [drawIters, sliceTo, le_refl, if_true, Int.toNat_zero, List.take_zero]
  rfl

/-- C60: a new cached object returns exactly what the function returns for the same Lanczos iterations. -/
theorem cachedSpectrum_eq_repeatLoop (src : LanczosSource) (fromIter : LanczosIter → Py (List ℝ × List ℝ)) (P : Nat)
    (hlen : ∀ it r, fromIter it = .ok r → r.2.length = P)
    (hgrid : ∀ it it' r r', fromIter it = .ok r → fromIter it' = .ok r' → r.1 = r'.1) (calls n : Nat)
    (r : List ℝ × List ℝ) (c : Nat)
    (h : repeatLoop src fromIter calls 0 none (List.replicate P 0) n = (.ok r, c)) :
    ∃ st', cachedSpectrum src fromIter ⟨[], calls⟩ n = (.ok r, st') ∧ st'.calls = c ∧ st'.iters.length = n := by
  obtain ⟨g, a⟩ := r
  obtain ⟨hn, hc, ha, its, res, hir, hg, hv⟩ := repeatLoop_mean src fromIter P hlen calls n g a c h
  obtain ⟨new, g1, g2, g3⟩ := getLanczosIters_spec src ⟨[], calls⟩ n
  simp only [List.nil_append, List.length_nil, Nat.sub_zero] at g1 g2 g3
  rcases g3 with ⟨a1, -, a3, a4⟩ | ⟨e, -, b2, b3, -⟩
  swap
  · exfalso
    rw [(hir new.length (by omega)).1] at b3
    cases b3
  have hnew : ∀ i (hi : i < new.length), new[i] = its i := by
    intro i hi
    have := g2 i hi
    rw [(hir i (by omega)).1] at this
    exact (Except.ok.inj this).symm
  -- the cached object returns
  have hok : ∃ g' a', cachedSpectrum src fromIter ⟨[], calls⟩ n = (.ok (g', a'), (getLanczosIters src ⟨[], calls⟩ n).2) := by
    unfold cachedSpectrum
    rcases hgl : getLanczosIters src ⟨[], calls⟩ n with ⟨q, st1⟩
    rw [hgl] at a1
    simp only at a1
    subst a1
    simp only
    rw [List.take_of_length_le (by omega)]
    obtain ⟨rs, hrs⟩ := mapM_total fromIter new (by
      intro x hx
      obtain ⟨i, hi, rfl⟩ := List.getElem_of_mem hx
      rw [hnew i hi]
      exact ⟨_, (hir i (by omega)).2⟩)
    rw [hrs]
    have hl := (mapM_ok _ _ _ hrs).1
    cases rs with
    | nil => simp at hl; omega
    | cons s ss => exact ⟨_, _, rfl⟩
  obtain ⟨g', a', hok⟩ := hok
  obtain ⟨-, -, ha', -, res', hr', hg', hv'⟩ := cachedSpectrum_mean src fromIter P hlen ⟨[], calls⟩ n g' a' _ hok
  have hres : ∀ i < n, res' i = res i := by
    intro i hi
    have := hr' i hi (by rw [g1]; omega)
    simp only [g1] at this
    rw [hnew i (by omega), (hir i hi).2] at this
    exact (Except.ok.inj this).symm
  have hgg : g' = g := by
    rw [hg', hg, hres 0 hn]
    exact hgrid _ _ _ _ (hir 0 hn).2 (hir (n - 1) (by omega)).2
  have haa : a' = a := by
    refine List.ext_getElem (by omega) fun p hp hp' => ?_
    have e1 := hv' p (by omega)
    have e2 := hv p (by omega)
    rw [List.getD_eq_getElem _ _ hp] at e1
    rw [List.getD_eq_getElem _ _ hp'] at e2
    rw [e1, e2]
    congr 1
    exact Finset.sum_congr rfl fun i hi => by rw [hres i (Finset.mem_range.mp hi)]
  subst hgg haa
  exact ⟨_, hok, by rw [a4, hc], by rw [g1, a3]⟩

/-- C60: `LanczosApproximateSpectrumCached` and `lanczos_approximate_spectrum`. -/
theorem cachedApproximateSpectrum_eq (eigsh : Eigsh) (src : LanczosSource) (calls P n : Nat) (kappa margin : ℝ)
    (boundaries : Boundaries) (b : ℝ × ℝ) (hb : (approximateBoundaries eigsh boundaries).1 = .ok b)
    (r : List ℝ × List ℝ) (c : Nat) (h : lanczosSpectrum eigsh src calls P n kappa boundaries margin = (.ok r, c)) :
    ∃ st', cachedApproximateSpectrum src b ⟨[], calls⟩ n P kappa margin = (.ok r, st') ∧ st'.calls = c := by
  unfold lanczosSpectrum at h
  rw [hb] at h
  obtain ⟨st', h1, h2, -⟩ := cachedSpectrum_eq_repeatLoop src _ P (fun it r hr => (spectrumFromIter_ok hr).2.2)
    (fun it it' r r' hr hr' => by rw [(spectrumFromIter_ok hr).2.1, (spectrumFromIter_ok hr').2.1]) calls n r c h
  exact ⟨st', h1, h2⟩

/-- C60: `LanczosApproximateLogSpectrumCached` and `lanczos_approximate_log_spectrum`, with the same `kappa`. -/
theorem cachedApproximateLogSpectrum_eq_partial (eigsh : Eigsh) (src : LanczosSource) (calls P n : Nat) (kappa margin epsilon : ℝ)
    (boundaries : Boundaries) (b : ℝ × ℝ) (hb : (approximateBoundariesAbs eigsh boundaries).1 = .ok b)
    (r : List ℝ × List ℝ) (c : Nat) (h : lanczosLogSpectrum eigsh src calls P n kappa boundaries margin epsilon = (.ok r, c)) :
    ∃ st', cachedApproximateLogSpectrum src b ⟨[], calls⟩ n P kappa margin epsilon = (.ok r, st') ∧ st'.calls = c := by
  unfold lanczosLogSpectrum at h
  rw [hb] at h
  obtain ⟨st', h1, h2, -⟩ := cachedSpectrum_eq_repeatLoop src _ P (fun it r hr => (logSpectrumFromIter_ok hr).2.1)
    (fun it it' r r' hr hr' => (logSpectrumFromIter_ok hr').2.2 _ _ hr) calls n r c h
  exact ⟨st', h1, h2⟩

end Curvlinops
