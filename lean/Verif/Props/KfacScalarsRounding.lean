import Verif.Model.KfacScalarsRounding
import Verif.Props.KfacInverseRounding
import Verif.Props.KfacScalars

/-!
# C134: rounding errors of KFAC's `trace` and `frobenius_norm`
-/

namespace Curvlinops

section loop

variable {ρ : Rounding} {γ δ ε : Type _}

/-- Number of parameters that the mapping contains. -/
def mappingParams (mapping : Dict (Dict Nat)) : Nat := (mapping.map fun e => e.2.length).sum

/-- The loop over the mapping keeps a relation `R k` between the computed value, the exact one and the one of the bounds after `k` additions. -/
theorem accLoopFl_rel {gA gB : ℝ} {p q : Nat} (sep : Bool) {inCov gradCov : Dict (Factor (Fl ρ))}
    {inCov' inCov'' gradCov' gradCov'' : Dict (Factor ℝ)} (R : Nat → γ → δ → ε → Prop)
    (hmono : ∀ k x a A, R k x a A → R (k + 1) x a A)
    {j w : Factor (Fl ρ) → Factor (Fl ρ) → γ → γ} {o : Factor (Fl ρ) → γ → γ} {j' w' : Factor ℝ → Factor ℝ → δ → δ} {o' : Factor ℝ → δ → δ}
    {j'' w'' : Factor ℝ → Factor ℝ → ε → ε} {o'' : Factor ℝ → ε → ε}
    (hj : ∀ k x a X A A' A'' B B' B'', FactorWithin gA A A' A'' → A.dim ≤ p → FactorWithin gB B B' B'' → B.dim ≤ q → R k x a X →
      R (k + 1) (j A B x) (j' A' B' a) (j'' A'' B'' X))
    (hw : ∀ k x a X A A' A'' B B' B'', FactorWithin gA A A' A'' → A.dim ≤ p → FactorWithin gB B B' B'' → B.dim ≤ q → R k x a X →
      R (k + 1) (w A B x) (w' A' B' a) (w'' A'' B'' X))
    (ho : ∀ k x a X B B' B'', FactorWithin gB B B' B'' → B.dim ≤ q → R k x a X → R (k + 1) (o B x) (o' B' a) (o'' B'' X)) :
    ∀ (mapping : Dict (Dict Nat)), (∀ e ∈ mapping, e.2.has "weight" = true → FactorsWithin gA p inCov inCov' inCov'' e.1) →
      (∀ e ∈ mapping, FactorsWithin gB q gradCov gradCov' gradCov'' e.1) → ∀ k x a X, R k x a X →
      Rel3 (R (k + mappingParams mapping)) (accLoopFl sep inCov gradCov j w o mapping x) (accLoop sep inCov' gradCov' j' w' o' mapping a)
        (accLoop sep inCov'' gradCov'' j'' w'' o'' mapping X) := by
  have hmono' : ∀ n k x a A, R k x a A → R (k + n) x a A := by
    intro n
    induction n with
    | zero => exact fun _ _ _ _ h => h
    | succ n ih => exact fun k x a A h => hmono _ _ _ _ (ih k x a A h)
  have hparams : ∀ (name : String) (B : Factor (Fl ρ)) (B' B'' : Factor ℝ), FactorWithin gB B B' B'' → B.dim ≤ q → ∀ (pos : Dict Nat),
      (pos.has "weight" = true → FactorsWithin gA p inCov inCov' inCov'' name) → ∀ k x a X, R k x a X →
      Rel3 (R (k + pos.length)) (accLoopFl.paramsLoop inCov w o name B pos x) (accLoop.paramsLoop inCov' w' o' name B' pos a)
        (accLoop.paramsLoop inCov'' w'' o'' name B'' pos X) := by
    intro name B B' B'' hB hq pos
    induction pos with
    | nil => exact fun _ _ _ _ _ h => h
    | cons e ps ih =>
      obtain ⟨pn, pi⟩ := e
      intro hA k x a X hx
      have hps : ∀ h : Dict.has ps "weight" = true, FactorsWithin gA p inCov inCov' inCov'' name := by
        intro h
        refine hA ?_
        simp only [Dict.has, List.any_cons, Bool.or_eq_true] at h ⊢
        exact .inr h
      have hlen : k + ((pn, pi) :: ps).length = k + 1 + ps.length := by simp only [List.length_cons]; omega
      rw [hlen]
      by_cases hp : pn = "weight"
      · have hA := hA (by simp [Dict.has, hp])
        simp only [accLoopFl.paramsLoop, accLoop.paramsLoop, if_pos hp]
        unfold FactorsWithin at hA
        rcases h1 : inCov.getE name with e1 | A <;> rcases h2 : inCov'.getE name with e2 | A' <;>
          rcases h3 : inCov''.getE name with e3 | A'' <;> rw [h1, h2, h3] at hA <;> simp only [Rel3] at hA
        · exact hA
        · exact ih hps _ _ _ _ (hw k x a X A A' A'' B B' B'' hA.1 hA.2 hB hq hx)
      · simp only [accLoopFl.paramsLoop, accLoop.paramsLoop, if_neg hp]
        exact ih hps _ _ _ _ (ho k x a X B B' B'' hB hq hx)
  intro mapping
  induction mapping with
  | nil => exact fun _ _ _ _ _ _ h => h
  | cons e rest ih =>
    obtain ⟨name, pos⟩ := e
    intro hA hB k x a X hx
    have ih := ih (fun e he => hA e (by simp [he])) (fun e he => hB e (by simp [he]))
    have hA := hA (name, pos) (by simp)
    have hB := hB (name, pos) (by simp)
    have hcount : k + mappingParams ((name, pos) :: rest) = k + pos.length + mappingParams rest := by
      simp only [mappingParams, List.map_cons, List.sum_cons]; omega
    rw [hcount]
    unfold FactorsWithin at hB
    rcases h1 : gradCov.getE name with e1 | B <;> rcases h2 : gradCov'.getE name with e2 | B' <;>
      rcases h3 : gradCov''.getE name with e3 | B'' <;> rw [h1, h2, h3] at hB <;> simp only [Rel3] at hB
    · simp only [accLoopFl, accLoop, h1, h2, h3]
      exact hB
    simp only [accLoopFl, accLoop, h1, h2, h3]
    by_cases hc : (!sep && pos.has "weight" && pos.has "bias") = true
    · simp only [if_pos hc]
      have hw' : pos.has "weight" = true := by
        simp only [Bool.and_eq_true] at hc
        exact hc.1.2
      have hA := hA hw'
      unfold FactorsWithin at hA
      rcases h4 : inCov.getE name with e1 | A <;> rcases h5 : inCov'.getE name with e2 | A' <;>
        rcases h6 : inCov''.getE name with e3 | A'' <;> rw [h4, h5, h6] at hA <;> simp only [Rel3] at hA
      · exact hA
      · have hpos : pos.length = 1 + (pos.length - 1) := by
          cases pos with
          | nil => simp [Dict.has] at hw'
          | cons _ _ => simp; omega
        refine ih _ _ _ _ ?_
        rw [hpos, ← add_assoc]
        exact hmono' _ _ _ _ _ (hj k x a X A A' A'' B B' B'' hA.1 hA.2 hB.1 hB.2 hx)
    · simp only [if_neg hc]
      have := hparams name B B' B'' hB.1 hB.2 pos hA k x a X hx
      rcases h4 : accLoopFl.paramsLoop inCov w o name B pos x with e1 | y <;>
        rcases h5 : accLoop.paramsLoop inCov' w' o' name B' pos a with e2 | b <;>
        rcases h6 : accLoop.paramsLoop inCov'' w'' o'' name B'' pos X with e3 | Y <;> rw [h4, h5, h6] at this <;> simp only [Rel3] at this
      · exact this
      · exact ih _ _ _ _ this

end loop

section scalars

variable {ρ : Rounding}

theorem Within.add {g : ℝ} {x y : Fl ρ} {a b A B : ℝ} (hx : Within g x a A) (hy : Within g y b B) :
    Within (g * (1 + ρ.u)) (x + y) (a + b) (A + B) :=
  ⟨(abs_add_le _ _).trans (add_le_add hx.1 hy.1), add_within x y a b A B g hx.1 hy.1 hx.2 hy.2⟩

/-- A sum of accuracy `g (1 + u)^k` after `k` additions, which is exactly zero before the first one; `Q` is kept by the additions. -/
def AccWithin (g : ℝ) (Q : Fl ρ → Prop) (k : Nat) (x : Fl ρ) (a A : ℝ) : Prop :=
  (k = 0 → x = 0 ∧ a = 0 ∧ A = 0) ∧ Within (g * (1 + ρ.u) ^ k) x a A ∧ Q x

theorem AccWithin.mono {g : ℝ} (hg : 0 ≤ g) {Q : Fl ρ → Prop} (k : Nat) (x : Fl ρ) (a A : ℝ) (h : AccWithin g Q k x a A) :
    AccWithin g Q (k + 1) x a A := by
  refine ⟨fun h => absurd h (Nat.succ_ne_zero k), h.2.1.mono ?_, h.2.2⟩
  exact mul_le_mul_of_nonneg_left (pow_le_pow_right₀ (by linarith [ρ.nonneg]) (Nat.le_succ k)) hg

theorem AccWithin.step {g : ℝ} (hg : 0 ≤ g) {Q : Fl ρ → Prop} (hQ : ∀ x y, Q x → Q y → Q (x + y)) {k : Nat} {x y : Fl ρ} {a A b B : ℝ}
    (h : AccWithin g Q k x a A) (hy : Within (g * (1 + ρ.u)) y b B) (hQy : Q y) :
    AccWithin g Q (k + 1) (x + y) (a + b) (A + B) := by
  refine ⟨fun h => absurd h (Nat.succ_ne_zero k), ?_, hQ _ _ h.2.2 hQy⟩
  have h1 := ρ.nonneg
  cases k with
  | zero =>
    obtain ⟨rfl, rfl, rfl⟩ := h.1 rfl
    rw [Fl.zero_add', zero_add, zero_add, zero_add, pow_one]
    exact hy
  | succ k =>
    rw [pow_succ, ← mul_assoc]
    refine h.2.1.add (hy.mono ?_)
    rw [pow_succ, ← mul_assoc]
    have := one_le_pow_u (ρ := ρ) k
    have : g ≤ g * (1 + ρ.u) ^ k := le_mul_of_one_le_right hg this
    exact mul_le_mul_of_nonneg_right this (by linarith)

theorem FlSum.sum_nil (σ : FlSum ρ) : σ.sum [] = 0 := by
  have h := σ.close []
  simp only [List.map_nil, List.sum_nil, sub_zero, mul_zero, abs_nonpos_iff] at h
  exact Subtype.ext h

theorem traceFl_within (σ : FlSum ρ) {g : ℝ} (hg : 1 ≤ g) {F : Factor (Fl ρ)} {a A : Factor ℝ} (h : FactorWithin g F a A) {n : Nat}
    (hn : F.dim ≤ n) : Within (g * (1 + ρ.u) ^ n) (traceFl σ F) a.trace A.trace := by
  obtain ⟨h1, h2, h3⟩ := h
  have := Within.sum σ (List.range F.dim) (fun i => F.mat i i) (fun i => a.mat i i) (fun i => A.mat i i)
    fun i hi => h3 i (List.mem_range.mp hi) i (List.mem_range.mp hi)
  unfold traceFl Factor.trace matTrace
  rw [h1, h2, finset_range_list, finset_range_list]
  refine this.mono (mul_le_mul_of_nonneg_left (pow_le_pow_right₀ (by linarith [ρ.nonneg]) ?_) (by linarith))
  rw [List.length_range]
  omega

/-- The positions in a square matrix. -/
theorem square_positions {δ : Type _} (n : Nat) (f : Nat → Nat → δ) :
    ((List.range n).flatMap fun i => (List.range n).map fun j => f i j) =
      ((List.range n).flatMap fun i => (List.range n).map fun j => (i, j)).map fun t => f t.1 t.2 := by
  rw [List.map_flatMap]
  simp only [List.map_map]
  rfl

theorem square_sum (n : Nat) (f : Nat → Nat → ℝ) :
    (((List.range n).flatMap fun i => (List.range n).map fun j => (i, j)).map fun t => f t.1 t.2).sum =
      ∑ i ∈ Finset.range n, ∑ j ∈ Finset.range n, f i j := by
  rw [← square_positions, List.flatMap, List.sum_flatten, List.map_map, finset_range_list]
  congr 1

theorem squaresFl_within (σ : FlSum ρ) {g : ℝ} (hg : 1 ≤ g) {F : Factor (Fl ρ)} {a A : Factor ℝ} (h : FactorWithin g F a A) {n : Nat}
    (hn : F.dim ≤ n) : Within (g * g * (1 + ρ.u) ^ (n * n)) (squaresFl σ F) a.squares A.squares := by
  obtain ⟨h1, h2, h3⟩ := h
  by_cases h0 : F.dim = 0
  · unfold squaresFl Factor.squares matSquares
    rw [h1, h2, h0]
    simp only [List.range_zero, List.flatMap_nil, Finset.range_zero, Finset.sum_empty, FlSum.sum_nil]
    exact within_zero _
  have := Within.gram σ hg ((List.range F.dim).flatMap fun i => (List.range F.dim).map fun j => (i, j)) (fun t => F.mat t.1 t.2)
    (fun t => F.mat t.1 t.2) (fun t => a.mat t.1 t.2) (fun t => A.mat t.1 t.2) (fun t => a.mat t.1 t.2) (fun t => A.mat t.1 t.2)
    (fun t ht => by
      obtain ⟨i, hi, ht'⟩ := List.mem_flatMap.mp ht
      obtain ⟨j, hj, rfl⟩ := List.mem_map.mp ht'
      exact h3 i (List.mem_range.mp hi) j (List.mem_range.mp hj)) (fun t ht => by
      obtain ⟨i, hi, ht'⟩ := List.mem_flatMap.mp ht
      obtain ⟨j, hj, rfl⟩ := List.mem_map.mp ht'
      exact h3 i (List.mem_range.mp hi) j (List.mem_range.mp hj))
  rw [square_sum F.dim fun i j => a.mat i j * a.mat i j, square_sum F.dim fun i j => A.mat i j * A.mat i j,
    ← square_positions F.dim fun i j => F.mat i j * F.mat i j] at this
  unfold squaresFl Factor.squares matSquares
  simp only [h1, h2, pow_two]
  refine this.mono (mul_le_mul_of_nonneg_left (pow_le_pow_right₀ (by linarith [ρ.nonneg]) ?_) (by nlinarith))
  have hlen : ((List.range F.dim).flatMap fun i => (List.range F.dim).map fun j => (i, j)).length = F.dim * F.dim := by
    simp [List.length_flatMap]
  rw [hlen]
  have h4 : F.dim * F.dim ≤ n * n := Nat.mul_le_mul hn hn
  have h5 : 0 < F.dim * F.dim := Nat.mul_pos (Nat.pos_of_ne_zero h0) (Nat.pos_of_ne_zero h0)
  omega

/-- Roundings of nonnegative numbers are nonnegative. -/
theorem rnd_nonneg (hu : ρ.u ≤ 1) {x : ℝ} (hx : 0 ≤ x) : 0 ≤ ρ.rnd x := by
  have h := (abs_le.mp (ρ.close x)).1
  rw [abs_of_nonneg hx] at h
  nlinarith

/-- Sums of not too many nonnegative numbers are nonnegative. -/
theorem FlSum.nonneg (σ : FlSum ρ) (l : List (Fl ρ)) (h : ∀ x ∈ l, 0 ≤ x.val) (hu : (1 + ρ.u) ^ (l.length - 1) ≤ 2) : 0 ≤ (σ.sum l).val := by
  have h1 := (abs_le.mp (σ.close l)).1
  have h2 : (l.map fun x => |x.val|).sum = (l.map Fl.val).sum := by
    congr 1
    exact List.map_congr_left fun x hx => abs_of_nonneg (h x hx)
  have h3 : 0 ≤ (l.map Fl.val).sum := List.sum_nonneg fun y hy => by
    obtain ⟨x, hx, rfl⟩ := List.mem_map.mp hy
    exact h x hx
  rw [h2] at h1
  nlinarith

theorem squaresFl_nonneg (σ : FlSum ρ) {F : Factor (Fl ρ)} {n : Nat} (hn : F.dim ≤ n) (hu1 : ρ.u ≤ 1) (hu : (1 + ρ.u) ^ (n * n) ≤ 2) :
    0 ≤ (squaresFl σ F).val := by
  refine σ.nonneg _ (fun x hx => ?_) (le_trans (pow_le_pow_right₀ (by linarith [ρ.nonneg]) ?_) hu)
  · obtain ⟨i, -, hx⟩ := List.mem_flatMap.mp hx
    obtain ⟨j, -, rfl⟩ := List.mem_map.mp hx
    exact rnd_nonneg hu1 (mul_self_nonneg _)
  · have : F.dim * F.dim ≤ n * n := Nat.mul_le_mul hn hn
    have hlen : ((List.range F.dim).flatMap fun i => (List.range F.dim).map fun j => F.mat i j * F.mat i j).length = F.dim * F.dim := by
      simp [List.length_flatMap]
    rw [hlen]
    omega

theorem mul_one_fl (x : Fl ρ) : x * 1 = x := Subtype.ext (by
  show ρ.rnd (x.val * 1) = x.val
  rw [mul_one]
  exact x.2)

/-- Accuracy of products of the factors' traces or squared norms. -/
theorem term_within {gA gB : ℝ} (hgA : 1 ≤ gA) {m n : Nat} {x y : Fl ρ} {a b A B : ℝ}
    (hx : Within (gA * (1 + ρ.u) ^ m) x a A) (hy : Within (gB * (1 + ρ.u) ^ n) y b B) :
    Within (gA * gB * (1 + ρ.u) ^ (m + n) * (1 + ρ.u)) (x * y) (a * b) (A * B) := by
  refine (hx.mul (one_le_mul_of_one_le_of_one_le hgA (one_le_pow_u m)) hy).mono (le_of_eq ?_)
  rw [pow_add]
  ring

theorem term_within' {gA gB : ℝ} (hgA : 1 ≤ gA) (hgB : 1 ≤ gB) (m : Nat) {n : Nat} {y : Fl ρ} {b B : ℝ} (hy : Within (gB * (1 + ρ.u) ^ n) y b B) :
    Within (gA * gB * (1 + ρ.u) ^ (m + n) * (1 + ρ.u)) (y * 1) (b * 1) (B * 1) := by
  rw [mul_one_fl, mul_one, mul_one]
  refine hy.mono ?_
  have h1 := one_le_pow_u (ρ := ρ) m
  have h2 := one_le_pow_u (ρ := ρ) n
  have h3 := ρ.nonneg
  have h4 : 0 ≤ gB * (1 + ρ.u) ^ n := by nlinarith
  have h5 : 1 ≤ gA * (1 + ρ.u) ^ m * (1 + ρ.u) :=
    one_le_mul_of_one_le_of_one_le (one_le_mul_of_one_le_of_one_le hgA h1) (by linarith)
  calc gB * (1 + ρ.u) ^ n ≤ gB * (1 + ρ.u) ^ n * (gA * (1 + ρ.u) ^ m * (1 + ρ.u)) := le_mul_of_one_le_right h4 h5
    _ = _ := by rw [pow_add]; ring

/-- **C134** (operations of `trace`): for factors of accuracies `gA` and `gB` with at most `p` and `q` rows, and `P` parameters, the trace has accuracy
`gA gB (1 + u)^(p + q + P)`; the same exceptions are raised as in exact arithmetic. -/
theorem kfacTraceFl_rel (σ : FlSum ρ) {gA gB : ℝ} (hgA : 1 ≤ gA) (hgB : 1 ≤ gB) {p q : Nat} (sep : Bool) (mapping : Dict (Dict Nat))
    {inCov gradCov : Dict (Factor (Fl ρ))} {inCov' inCov'' gradCov' gradCov'' : Dict (Factor ℝ)}
    (hA : ∀ e ∈ mapping, e.2.has "weight" = true → FactorsWithin gA p inCov inCov' inCov'' e.1)
    (hB : ∀ e ∈ mapping, FactorsWithin gB q gradCov gradCov' gradCov'' e.1) :
    Rel3 (Within (gA * gB * (1 + ρ.u) ^ (p + q + mappingParams mapping))) (kfacTraceFl σ sep mapping inCov gradCov)
      (kfacTrace sep mapping inCov' gradCov') (kfacTrace sep mapping inCov'' gradCov'') := by
  have hg : 0 ≤ gA * gB * (1 + ρ.u) ^ (p + q) := by
    have := one_le_pow_u (ρ := ρ) (p + q)
    have : 0 ≤ gA * gB := by nlinarith
    positivity
  have := accLoopFl_rel sep (AccWithin (gA * gB * (1 + ρ.u) ^ (p + q)) fun _ => True) (AccWithin.mono hg)
    (j := fun A B acc => acc + traceFl σ A * traceFl σ B) (w := fun A B acc => acc + traceFl σ B * traceFl σ A)
    (o := fun B acc => acc + traceFl σ B * 1)
    (j' := fun A B acc => acc + A.trace * B.trace) (w' := fun A B acc => acc + B.trace * A.trace) (o' := fun B acc => acc + B.trace * 1)
    (j'' := fun A B acc => acc + A.trace * B.trace) (w'' := fun A B acc => acc + B.trace * A.trace) (o'' := fun B acc => acc + B.trace * 1)
    (fun k x a X A A' A'' B B' B'' h1 h2 h3 h4 hx =>
      hx.step hg (fun _ _ _ _ => trivial) (term_within hgA (traceFl_within σ hgA h1 h2) (traceFl_within σ hgB h3 h4)) trivial)
    (fun k x a X A A' A'' B B' B'' h1 h2 h3 h4 hx =>
      hx.step hg (fun _ _ _ _ => trivial) (by
        have := term_within hgB (traceFl_within σ hgB h3 h4) (traceFl_within σ hgA h1 h2)
        rwa [mul_comm gB gA, add_comm q p] at this) trivial)
    (fun k x a X B B' B'' h3 h4 hx =>
      hx.step hg (fun _ _ _ _ => trivial) (term_within' hgA hgB p (traceFl_within σ hgB h3 h4)) trivial)
    mapping hA hB 0 0 0 0 ⟨fun _ => ⟨rfl, rfl, rfl⟩, within_zero _, trivial⟩
  refine this.mono fun x a A h => ?_
  have := h.2.1
  rwa [zero_add, mul_assoc, ← pow_add] at this

/-- **C134** (operations of `frobenius_norm` before the square root). -/
theorem kfacSquaresFl_rel (σ : FlSum ρ) {gA gB : ℝ} (hgA : 1 ≤ gA) (hgB : 1 ≤ gB) {p q : Nat} (sep : Bool) (mapping : Dict (Dict Nat))
    {inCov gradCov : Dict (Factor (Fl ρ))} {inCov' inCov'' gradCov' gradCov'' : Dict (Factor ℝ)}
    (hA : ∀ e ∈ mapping, e.2.has "weight" = true → FactorsWithin gA p inCov inCov' inCov'' e.1)
    (hB : ∀ e ∈ mapping, FactorsWithin gB q gradCov gradCov' gradCov'' e.1) :
    Rel3 (fun x a A => Within ((gA * gB) ^ 2 * (1 + ρ.u) ^ (p * p + q * q + mappingParams mapping)) x a A ∧
        (ρ.u ≤ 1 → (1 + ρ.u) ^ (p * p) ≤ 2 → (1 + ρ.u) ^ (q * q) ≤ 2 → 0 ≤ x.val))
      (kfacSquaresFl σ sep mapping inCov gradCov)
      (accLoop sep inCov' gradCov' (fun A B acc => acc + A.squares * B.squares) (fun A B acc => acc + B.squares * A.squares)
        (fun B acc => acc + B.squares * 1) mapping 0)
      (accLoop sep inCov'' gradCov'' (fun A B acc => acc + A.squares * B.squares) (fun A B acc => acc + B.squares * A.squares)
        (fun B acc => acc + B.squares * 1) mapping 0) := by
  have hgA2 : 1 ≤ gA * gA := one_le_mul_of_one_le_of_one_le hgA hgA
  have hgB2 : 1 ≤ gB * gB := one_le_mul_of_one_le_of_one_le hgB hgB
  have hg : 0 ≤ gA * gA * (gB * gB) * (1 + ρ.u) ^ (p * p + q * q) := by
    have := one_le_pow_u (ρ := ρ) (p * p + q * q)
    have : 0 ≤ gA * gA * (gB * gB) := by nlinarith
    positivity
  have hQadd : ∀ x y : Fl ρ, (ρ.u ≤ 1 → (1 + ρ.u) ^ (p * p) ≤ 2 → (1 + ρ.u) ^ (q * q) ≤ 2 → 0 ≤ x.val) →
      (ρ.u ≤ 1 → (1 + ρ.u) ^ (p * p) ≤ 2 → (1 + ρ.u) ^ (q * q) ≤ 2 → 0 ≤ y.val) →
      ρ.u ≤ 1 → (1 + ρ.u) ^ (p * p) ≤ 2 → (1 + ρ.u) ^ (q * q) ≤ 2 → 0 ≤ (x + y).val :=
    fun x y hx hy h1 h2 h3 => rnd_nonneg h1 (add_nonneg (hx h1 h2 h3) (hy h1 h2 h3))
  have := accLoopFl_rel sep (AccWithin (gA * gA * (gB * gB) * (1 + ρ.u) ^ (p * p + q * q)) fun x =>
      ρ.u ≤ 1 → (1 + ρ.u) ^ (p * p) ≤ 2 → (1 + ρ.u) ^ (q * q) ≤ 2 → 0 ≤ x.val) (AccWithin.mono hg)
    (j := fun A B acc => acc + squaresFl σ A * squaresFl σ B) (w := fun A B acc => acc + squaresFl σ B * squaresFl σ A)
    (o := fun B acc => acc + squaresFl σ B * 1)
    (j' := fun A B acc => acc + A.squares * B.squares) (w' := fun A B acc => acc + B.squares * A.squares)
    (o' := fun B acc => acc + B.squares * 1)
    (j'' := fun A B acc => acc + A.squares * B.squares) (w'' := fun A B acc => acc + B.squares * A.squares)
    (o'' := fun B acc => acc + B.squares * 1)
    (fun k x a X A A' A'' B B' B'' h1 h2 h3 h4 hx =>
      hx.step hg hQadd (term_within hgA2 (squaresFl_within σ hgA h1 h2) (squaresFl_within σ hgB h3 h4))
        fun u1 u2 u3 => rnd_nonneg u1 (mul_nonneg (squaresFl_nonneg σ h2 u1 u2) (squaresFl_nonneg σ h4 u1 u3)))
    (fun k x a X A A' A'' B B' B'' h1 h2 h3 h4 hx =>
      hx.step hg hQadd (by
        have := term_within hgB2 (squaresFl_within σ hgB h3 h4) (squaresFl_within σ hgA h1 h2)
        rwa [mul_comm (gB * gB) (gA * gA), add_comm (q * q) (p * p)] at this)
        fun u1 u2 u3 => rnd_nonneg u1 (mul_nonneg (squaresFl_nonneg σ h4 u1 u3) (squaresFl_nonneg σ h2 u1 u2)))
    (fun k x a X B B' B'' h3 h4 hx =>
      hx.step hg hQadd (term_within' hgA2 hgB2 (p * p) (squaresFl_within σ hgB h3 h4))
        fun u1 u2 u3 => rnd_nonneg u1 (mul_nonneg (squaresFl_nonneg σ h4 u1 u3) zero_le_one))
    mapping hA hB 0 0 0 0 ⟨fun _ => ⟨rfl, rfl, rfl⟩, within_zero _, fun _ _ _ => le_rfl⟩
  refine this.mono fun x a A h => ⟨?_, h.2.2⟩
  have := h.2.1
  rw [zero_add, mul_assoc, ← pow_add] at this
  rwa [show (gA * gB) ^ 2 = gA * gA * (gB * gB) by ring]

/-- Square roots of numbers with errors, and one rounding. -/
theorem sqrt_within {g : ℝ} (hg : 1 ≤ g) {x : Fl ρ} {a A : ℝ} (hx : Within g x a A) (h0 : 0 ≤ x.val) (ha : 0 ≤ a) :
    |(Fl.of ρ (Real.sqrt x.val)).val - Real.sqrt a| * Real.sqrt a ≤ (g * (1 + ρ.u) - 1) * A := by
  obtain ⟨h1, h2⟩ := hx
  rw [abs_of_nonneg ha] at h1
  set r := Real.sqrt x.val with hr
  set s := Real.sqrt a with hs
  have r0 : 0 ≤ r := Real.sqrt_nonneg _
  have s0 : 0 ≤ s := Real.sqrt_nonneg _
  have r2 : r * r = x.val := Real.mul_self_sqrt h0
  have s2 : s * s = a := Real.mul_self_sqrt ha
  have hu := ρ.nonneg
  have e1 : |(Fl.of ρ r).val - r| ≤ ρ.u * r := by
    have := ρ.close r
    rwa [abs_of_nonneg r0] at this
  have e2 : |r - s| * s ≤ (g - 1) * A := by
    refine le_trans ?_ h2
    rw [← r2, ← s2, show r * r - s * s = (r - s) * (r + s) by ring, abs_mul, abs_of_nonneg (add_nonneg r0 s0)]
    exact mul_le_mul_of_nonneg_left (by linarith) (abs_nonneg _)
  have hA : 0 ≤ A := ha.trans h1
  have e3 : r * s ≤ g * A := by
    have h3 : x.val ≤ g * A := by
      have := (abs_le.mp h2).2
      linarith
    have h4 : a ≤ g * A := by nlinarith
    nlinarith [mul_self_nonneg (r - s)]
  have e4 : |(Fl.of ρ r).val - s| ≤ |(Fl.of ρ r).val - r| + |r - s| := abs_sub_le _ _ _
  have e5 : |(Fl.of ρ r).val - s| * s ≤ (ρ.u * r + |r - s|) * s := mul_le_mul_of_nonneg_right (e4.trans (add_le_add e1 le_rfl)) s0
  have e6 := mul_le_mul_of_nonneg_left e3 hu
  nlinarith

/-- **C134** (factors): trace and Frobenius norm computed in floating point from factors within `gA` and `gB` of the exact ones. -/
theorem kfac_scalars_rounding_of_factors (σ : FlSum ρ) {gA gB : ℝ} (hgA : 1 ≤ gA) (hgB : 1 ≤ gB) {p q : Nat} (sep : Bool)
    (shapes : List (List Nat)) (mapping : Dict (Dict Nat)) {inCov gradCov : Dict (Factor (Fl ρ))}
    {inCov' inCov'' gradCov' gradCov'' : Dict (Factor ℝ)}
    (hA : ∀ e ∈ mapping, e.2.has "weight" = true → FactorsWithin gA p inCov inCov' inCov'' e.1)
    (hB : ∀ e ∈ mapping, FactorsWithin gB q gradCov gradCov' gradCov'' e.1) {ls ls' : List (Layer ℝ)}
    (hK : KfacLayers sep shapes mapping inCov' gradCov' ls) (hK' : KfacLayers sep shapes mapping inCov'' gradCov'' ls')
    (M M' : Mat ℝ) (hM : IsKron (kfacBlocks sep shapes ls) M) (hM' : IsKron (kfacBlocks sep shapes ls') M') :
    let n := (shapes.map List.prod).sum
    (∃ t, kfacTraceFl σ sep mapping inCov gradCov = .ok t ∧
      |t.val - matTrace n M| ≤ (gA * gB * (1 + ρ.u) ^ (p + q + shapes.length) - 1) * matTrace n M') ∧
    (mapping ≠ [] → ρ.u ≤ 1 → (1 + ρ.u) ^ (p * p) ≤ 2 → (1 + ρ.u) ^ (q * q) ≤ 2 →
      ∃ f, kfacFrobeniusFl σ sep mapping inCov gradCov = .ok (some f) ∧
        |f.val - Real.sqrt (matSquares n M)| * Real.sqrt (matSquares n M) ≤
          ((gA * gB) ^ 2 * (1 + ρ.u) ^ (p * p + q * q + shapes.length + 1) - 1) * matSquares n M') := by
  intro n
  have hcount : mappingParams mapping = shapes.length := by
    have h1 := hK.perm.length_eq
    rw [List.length_range] at h1
    rw [← h1, hK.mapping_eq, mappingParams, List.map_map, List.length_flatMap]
    congr 1
    refine List.map_congr_left fun l _ => ?_
    show l.pos.dict.length = l.pos.positions.length
    cases l.pos <;> rfl
  constructor
  · have h := kfacTraceFl_rel σ hgA hgB sep mapping hA hB
    rw [kfacTrace_eq hK M hM, kfacTrace_eq hK' M' hM', hcount] at h
    cases e : kfacTraceFl σ sep mapping inCov gradCov with
    | error e' => rw [e] at h; exact h.elim
    | ok t => rw [e] at h; exact ⟨t, rfl, h.2⟩
  · intro hne hu1 hp hq
    have hmne : mapping.isEmpty = false := by cases mapping <;> simp_all
    have h := kfacSquaresFl_rel σ hgA hgB sep mapping hA hB
    have hl : ls ≠ [] := by
      rintro rfl
      exact hne (by rw [hK.mapping_eq]; rfl)
    have hl' : ls' ≠ [] := by
      rintro rfl
      exact hne (by rw [hK'.mapping_eq]; rfl)
    have hs : ∀ {I G : Dict (Factor ℝ)} {L : List (Layer ℝ)} (_ : KfacLayers sep shapes mapping I G L) (N : Mat ℝ)
        (_ : IsKron (kfacBlocks sep shapes L) N), accLoop sep I G (fun A B acc => acc + A.squares * B.squares)
          (fun A B acc => acc + B.squares * A.squares) (fun B acc => acc + B.squares * 1) mapping 0 = .ok (matSquares n N) := by
      intro I G L hL N hN
      rw [kron_squares _ _ (kfac_tiles sep shapes mapping I G L hL) N hN, hL.mapping_eq,
        accLoop_eq sep shapes I G _ _ _ (fun b acc => acc + matSquares b.cols b.A * matSquares b.rows b.B) L
          hL.fits hL.inCov_get hL.gradCov_get, foldl_add_blocks, zero_add]
      · intro l w b acc _ hA
        simp only [Factor.squares, Layer.jBlock, hA]
      · intro l w acc _ hA
        simp only [Factor.squares, Layer.wBlock, hA, mul_comm]
      · intro l b acc _
        simp [Factor.squares, Layer.bBlock, matSquares]
    rw [hs hK M hM, hs hK' M' hM', hcount] at h
    cases e : kfacSquaresFl σ sep mapping inCov gradCov with
    | error e' => rw [e] at h; exact h.elim
    | ok t =>
      rw [e] at h
      obtain ⟨h1, h2⟩ := h
      have h2 := h2 hu1 hp hq
      refine ⟨Fl.of ρ (Real.sqrt t.val), ?_, ?_⟩
      · simp only [kfacFrobeniusFl, e, hmne, if_neg (not_lt.mpr h2)]
        rfl
      · have hg : 1 ≤ (gA * gB) ^ 2 * (1 + ρ.u) ^ (p * p + q * q + shapes.length) :=
          one_le_mul_of_one_le_of_one_le (one_le_pow₀ (one_le_mul_of_one_le_of_one_le hgA hgB)) (one_le_pow_u _)
        have ha : 0 ≤ matSquares n M := Finset.sum_nonneg fun i _ => Finset.sum_nonneg fun j _ => sq_nonneg _
        have := sqrt_within hg h1 h2 ha
        rwa [mul_assoc ((gA * gB) ^ 2), ← pow_succ] at this

/-- Without layers the Frobenius norm raises `AttributeError` as in exact arithmetic (C31), since a Python number has no `sqrt_`. -/
theorem kfacFrobeniusFl_no_layers (σ : FlSum ρ) (sep : Bool) (inCov gradCov : Dict (Factor (Fl ρ))) :
    kfacFrobeniusFl σ sep [] inCov gradCov = .error .attributeError := rfl

theorem FactorsWithin.of_close {e : ℝ} {n : Nat} {d : Dict (Factor (Fl ρ))} {d' d'' : Dict (Factor ℝ)} {name : String} {F : Factor (Fl ρ)}
    {a A : Factor ℝ} (h1 : d.get name = some F) (h2 : d'.get name = some a) (h3 : d''.get name = some A) (h : a.Close e (valFactor F) A)
    (hn : a.dim ≤ n) : FactorsWithin (1 + e) n d d' d'' name := by
  unfold FactorsWithin Dict.getE
  rw [h1, h2, h3]
  obtain ⟨c1, c2, c3, c4⟩ := h
  have c1 : F.dim = a.dim := c1
  refine ⟨⟨c1.symm, c2.trans c1.symm, fun i hi j hj => ⟨c3 i (c1 ▸ hi) j (c1 ▸ hj), ?_⟩⟩, c1 ▸ hn⟩
  rw [add_sub_cancel_left]
  exact c4 i (c1 ▸ hi) j (c1 ▸ hj)

/-- **C134**: trace and Frobenius norm of KFAC in floating point, from the numbers that the hooks see. `M` is KFAC's matrix in exact arithmetic, and `M'`
that of the factors of the bounds. The Frobenius norm is not `nan`. -/
theorem kfac_scalars_rounding (π : Rounding) (σ σ' : FlSum ρ) {η : ℝ} (cfg : KfacCfg) (shapes : List (List Nat))
    (layers : List PLayer) (batches : List (List (Computed ρ))) {B p q : Nat} {eA eG : ℝ}
    (hrun : RoundedRun π η cfg shapes layers batches B p q eA eG)
    (M M' : Mat ℝ) (hM : IsKron (kfacBlocks cfg.sep shapes (layers.map (PLayer.layer cfg (batches.flatten.map Computed.exact)))) M)
    (hM' : IsKron (kfacBlocks cfg.sep shapes (layers.map (PLayer.boundLayer cfg batches.flatten))) M') :
    let n := (shapes.map List.prod).sum
    let f := kfacFactorsFl π σ cfg (layers.map PLayer.klayer) (batches.map fun b => b.map Computed.fl)
    (∃ t, kfacTraceFl σ' cfg.sep (pMapping layers) f.1 f.2 = .ok t ∧
      |t.val - matTrace n M| ≤ ((1 + eA) * (1 + eG) * (1 + ρ.u) ^ (p + q + shapes.length) - 1) * matTrace n M') ∧
    (layers ≠ [] → ρ.u ≤ 1 → (1 + ρ.u) ^ (p * p) ≤ 2 → (1 + ρ.u) ^ (q * q) ≤ 2 →
      ∃ x, kfacFrobeniusFl σ' cfg.sep (pMapping layers) f.1 f.2 = .ok (some x) ∧
        |x.val - Real.sqrt (matSquares n M)| * Real.sqrt (matSquares n M) ≤
          (((1 + eA) * (1 + eG)) ^ 2 * (1 + ρ.u) ^ (p * p + q * q + shapes.length + 1) - 1) * matSquares n M') := by
  intro n f
  have hne' : (batches.map fun b => b.map Computed.exact) ≠ [] := by simpa using hrun.batches_ne
  have hflat : (batches.map fun b => b.map Computed.exact).flatten = batches.flatten.map Computed.exact := by
    rw [List.map_flatten]
  obtain ⟨hN, hT, hC, hmc⟩ := hrun.pos
  have hK := pnet_kfacLayers (cfg := cfg) hrun.net _ hne' hT hC hmc
  rw [hflat] at hK
  have hK' := bound_kfacLayers (cfg := cfg) hrun.net batches.flatten
  have key := kfac_scalars_rounding_of_factors σ' (gA := 1 + eA) (gB := 1 + eG) (p := p) (q := q) (inCov := f.1) (gradCov := f.2)
    (by linarith [hrun.nonneg.2.1]) (by linarith [hrun.nonneg.2.2]) cfg.sep shapes (pMapping layers) ?_ ?_ hK hK' M M' hM hM'
  · refine ⟨key.1, fun hl => key.2 ?_⟩
    simpa [pMapping] using hl
  · intro e he hw
    obtain ⟨l, hl, rfl⟩ := List.mem_map.mp he
    have hw' : l.pos.hasWeight = true := by rw [← Dict.has_dict_weight]; exact hw
    obtain ⟨F, h1, h2, -⟩ := (hrun.factors σ l hl).1 hw'
    refine FactorsWithin.of_close h1 (hK.inCov_get _ (List.mem_map_of_mem hl) hw') (hK'.inCov_get _ (List.mem_map_of_mem hl) hw') h2 ?_
    have := (hrun.dims l hl).1
    show l.din + (if l.klayer.joint cfg then 1 else 0) ≤ p
    split_ifs <;> omega
  · intro e he
    obtain ⟨l, hl, rfl⟩ := List.mem_map.mp he
    obtain ⟨F, h1, h2, -⟩ := (hrun.factors σ l hl).2
    exact FactorsWithin.of_close h1 (hK.gradCov_get _ (List.mem_map_of_mem hl)) (hK'.gradCov_get _ (List.mem_map_of_mem hl)) h2 (hrun.dims l hl).2

/-! ## Example: the linear layer with one weight of `Props/KfacInverseRounding.lean`, in `float32` -/

example (σ σ' : FlSum (binaryFloat 23)) :
    let f := kfacFactorsFl (binaryFloat 52) σ roundCfg [onePLayer.klayer] [[oneDatum]]
    (∃ t, kfacTraceFl σ' roundCfg.sep (pMapping [onePLayer]) f.1 f.2 = .ok t ∧ |t.val - 1| ≤ 1 / 400) ∧
      ∃ x, kfacFrobeniusFl σ' roundCfg.sep (pMapping [onePLayer]) f.1 f.2 = .ok (some x) ∧ |x.val - 1| ≤ 1 / 200 := by
  have hb := oneBound onePLayer (by simp)
  have hM' : IsKron (kfacBlocks roundCfg.sep [[1, 1]] ([onePLayer].map (PLayer.boundLayer roundCfg [takenExact oneDatum]))) fun _ _ => (1 : ℝ) := by
    rintro ⟨⟨i, hi⟩, a, b⟩ ⟨⟨j, hj⟩, c, d⟩
    obtain rfl : i = 0 := by simpa [kfacBlocks, Layer.blocks, PLayer.boundLayer, onePLayer] using hi
    obtain rfl : j = 0 := by simpa [kfacBlocks, Layer.blocks, PLayer.boundLayer, onePLayer] using hj
    have ha : (a : Nat) = 0 := Nat.lt_one_iff.mp a.2
    have hb' : (b : Nat) = 0 := Nat.lt_one_iff.mp b.2
    have hc : (c : Nat) = 0 := Nat.lt_one_iff.mp c.2
    have hd : (d : Nat) = 0 := Nat.lt_one_iff.mp d.2
    show (1 : ℝ) = (onePLayer.boundLayer roundCfg [takenExact oneDatum]).B.mat a c * (onePLayer.boundLayer roundCfg [takenExact oneDatum]).A.mat d b
    rw [ha, hb', hc, hd, hb.1, hb.2]
    norm_num
  have hM : IsKron (kfacBlocks roundCfg.sep [[1, 1]] ([onePLayer].map (PLayer.layer roundCfg ([takenExact oneDatum].map Computed.exact))))
      fun _ _ => (1 : ℝ) := by
    have h1 : (onePLayer.layer roundCfg ([takenExact oneDatum].map Computed.exact)).A.mat 0 0 = 1 := by
      simp [PLayer.layer, specInputFactor, specInputVec, roundCfg, onePLayer, PLayer.klayer, takenExact, oneDatum]
    have h2 : (onePLayer.layer roundCfg ([takenExact oneDatum].map Computed.exact)).B.mat 0 0 = 1 := by
      simp [PLayer.layer, specGradFactor, specGradScale, specGradVec, specCotangents, roundCfg, onePLayer, PLayer.klayer, takenExact, oneDatum]
    rintro ⟨⟨i, hi⟩, a, b⟩ ⟨⟨j, hj⟩, c, d⟩
    obtain rfl : i = 0 := by simpa [kfacBlocks, Layer.blocks, PLayer.layer, onePLayer] using hi
    obtain rfl : j = 0 := by simpa [kfacBlocks, Layer.blocks, PLayer.layer, onePLayer] using hj
    have ha : (a : Nat) = 0 := Nat.lt_one_iff.mp a.2
    have hb' : (b : Nat) = 0 := Nat.lt_one_iff.mp b.2
    have hc : (c : Nat) = 0 := Nat.lt_one_iff.mp c.2
    have hd : (d : Nat) = 0 := Nat.lt_one_iff.mp d.2
    show (1 : ℝ) = (onePLayer.layer roundCfg ([takenExact oneDatum].map Computed.exact)).B.mat a c *
      (onePLayer.layer roundCfg ([takenExact oneDatum].map Computed.exact)).A.mat d b
    rw [ha, hb', hc, hd, h1, h2]
    norm_num
  obtain ⟨⟨t, ht, h1⟩, h2⟩ := kfac_scalars_rounding (binaryFloat 52) σ σ' roundCfg [[1, 1]] [onePLayer] [[takenExact oneDatum]] oneRun _ _ hM hM'
  obtain ⟨x, hx, h3⟩ := h2 (by simp) (by norm_num [binaryFloat]) (by norm_num [binaryFloat]) (by norm_num [binaryFloat])
  refine ⟨⟨t, ht, ?_⟩, x, hx, ?_⟩
  · have e1 : (matTrace ([[1, 1]].map List.prod).sum fun _ _ => (1 : ℝ)) = 1 := by simp [matTrace]
    rw [e1] at h1
    refine h1.trans ?_
    norm_num [binaryFloat]
  · have e1 : (matSquares ([[1, 1]].map List.prod).sum fun _ _ => (1 : ℝ)) = 1 := by simp [matSquares]
    rw [e1, Real.sqrt_one, mul_one] at h3
    refine h3.trans ?_
    norm_num [binaryFloat]

end scalars

end Curvlinops
