import Verif.Spec.Conv
import Mathlib.Algebra.BigOperators.Field
import Mathlib.Algebra.BigOperators.Ring.Finset
import Mathlib.Algebra.BigOperators.Fin
import Mathlib.Data.Rat.Cast.Defs
import Mathlib.Tactic.Ring
import Mathlib.Tactic.Linarith
import Mathlib.Tactic.NormNum
import Mathlib.Tactic.IntervalCases

/-!
# C37, C38: patches of images
-/

namespace Curvlinops

variable {α : Type _} [Field α]

theorem sum_range_mul' {β : Type _} [AddCommMonoid β] (m n : Nat) (f : Nat → β) :
    ∑ o ∈ Finset.range (m * n), f o = ∑ a ∈ Finset.range m, ∑ b ∈ Finset.range n, f (a * n + b) := by
  induction m with
  | zero => simp
  | succ m ih =>
    rw [Nat.succ_mul, Finset.sum_range_add, ih, Finset.sum_range_succ]

/-- Reading the image by summing over all pixels. -/
theorem padded_eq_sum (x : Image α) (c : Nat) (a b : Int) :
    x.padded c a b = ∑ i ∈ Finset.range x.I1, ∑ j ∈ Finset.range x.I2,
      x.val c i j * (if (i : Int) = a then 1 else 0) * (if (j : Int) = b then 1 else 0) := by
  unfold Image.padded
  split_ifs with h
  · obtain ⟨h1, h2, h3, h4⟩ := h
    rw [Finset.sum_eq_single a.toNat, Finset.sum_eq_single b.toNat]
    · rw [if_pos (by omega), if_pos (by omega), mul_one, mul_one]
    · intro j _ hj
      rw [if_neg (c := (j : Int) = b) (by omega), mul_zero]
    · intro hb
      exact absurd (Finset.mem_range.mpr (by omega)) hb
    · intro i _ hi
      refine Finset.sum_eq_zero fun j _ => ?_
      rw [if_neg (c := (i : Int) = a) (by omega), mul_zero, zero_mul]
    · intro ha
      exact absurd (Finset.mem_range.mpr (by omega)) ha
  · refine (Finset.sum_eq_zero fun i hi => Finset.sum_eq_zero fun j hj => ?_).symm
    have hi := Finset.mem_range.mp hi
    have hj := Finset.mem_range.mp hj
    by_cases e1 : (i : Int) = a
    · by_cases e2 : (j : Int) = b
      · exact absurd ⟨by omega, by omega, by omega, by omega⟩ h
      · rw [if_neg e2, mul_zero]
    · rw [if_neg e1, mul_zero, zero_mul]

/-- What the averaged patches are, for every padding, also if it is not the same on both sides. -/
theorem averaged_core (x : Image α) (K S D L : Nat × Nat) (O1 O2 f : Nat) :
    ∑ i1 ∈ Finset.range x.I1, ∑ i2 ∈ Finset.range x.I2, x.val (f / (K.1 * K.2)) i1 i2 *
        ((∑ o ∈ Finset.range O1, if (i1 : Int) = ((f / K.2 % K.1 * D.1 + o * S.1 : Nat) : Int) - L.1 then (1 : α) else 0) / O1) *
        ((∑ o ∈ Finset.range O2, if (i2 : Int) = ((f % K.2 * D.2 + o * S.2 : Nat) : Int) - L.2 then (1 : α) else 0) / O2) =
      (∑ o1 ∈ Finset.range O1, ∑ o2 ∈ Finset.range O2, x.padded (f / (K.1 * K.2))
        (((o1 * S.1 + f / K.2 % K.1 * D.1 : Nat) : Int) - L.1) (((o2 * S.2 + f % K.2 * D.2 : Nat) : Int) - L.2)) /
        ((O1 * O2 : Nat) : α) := by
  have h : ∀ o1 o2 : Nat, x.padded (f / (K.1 * K.2))
      (((o1 * S.1 + f / K.2 % K.1 * D.1 : Nat) : Int) - L.1) (((o2 * S.2 + f % K.2 * D.2 : Nat) : Int) - L.2) =
      ∑ i ∈ Finset.range x.I1, ∑ j ∈ Finset.range x.I2, x.val (f / (K.1 * K.2)) i j *
        (if (i : Int) = ((f / K.2 % K.1 * D.1 + o1 * S.1 : Nat) : Int) - L.1 then 1 else 0) *
        (if (j : Int) = ((f % K.2 * D.2 + o2 * S.2 : Nat) : Int) - L.2 then 1 else 0) := by
    intro o1 o2
    rw [padded_eq_sum, Nat.add_comm (o1 * S.1), Nat.add_comm (o2 * S.2)]
  simp only [h]
  clear h
  have hs : ∀ i1 ∈ Finset.range x.I1, ∀ i2 ∈ Finset.range x.I2, x.val (f / (K.1 * K.2)) i1 i2 *
        ((∑ o ∈ Finset.range O1, if (i1 : Int) = ((f / K.2 % K.1 * D.1 + o * S.1 : Nat) : Int) - L.1 then (1 : α) else 0) / O1) *
        ((∑ o ∈ Finset.range O2, if (i2 : Int) = ((f % K.2 * D.2 + o * S.2 : Nat) : Int) - L.2 then (1 : α) else 0) / O2) =
      (∑ o1 ∈ Finset.range O1, ∑ o2 ∈ Finset.range O2, x.val (f / (K.1 * K.2)) i1 i2 *
        (if (i1 : Int) = ((f / K.2 % K.1 * D.1 + o1 * S.1 : Nat) : Int) - L.1 then 1 else 0) *
        (if (i2 : Int) = ((f % K.2 * D.2 + o2 * S.2 : Nat) : Int) - L.2 then 1 else 0)) / ((O1 * O2 : Nat) : α) := by
    intro i1 _ i2 _
    simp only [← Finset.mul_sum]
    rw [← Finset.sum_mul, ← Finset.mul_sum, Nat.cast_mul, div_eq_mul_inv, div_eq_mul_inv, div_eq_mul_inv, mul_inv]
    ring
  rw [Finset.sum_congr rfl fun i1 h1 => Finset.sum_congr rfl fun i2 h2 => hs i1 h1 i2 h2]
  simp only [← Finset.sum_div]
  congr 1
  calc _ = ∑ i1 ∈ Finset.range x.I1, ∑ o1 ∈ Finset.range O1, ∑ i2 ∈ Finset.range x.I2, ∑ o2 ∈ Finset.range O2, _ :=
        Finset.sum_congr rfl fun i1 _ => Finset.sum_comm
    _ = ∑ o1 ∈ Finset.range O1, ∑ i1 ∈ Finset.range x.I1, ∑ i2 ∈ Finset.range x.I2, ∑ o2 ∈ Finset.range O2, _ :=
        Finset.sum_comm
    _ = ∑ o1 ∈ Finset.range O1, ∑ i1 ∈ Finset.range x.I1, ∑ o2 ∈ Finset.range O2, ∑ i2 ∈ Finset.range x.I2, _ :=
        Finset.sum_congr rfl fun o1 _ => Finset.sum_congr rfl fun i1 _ => Finset.sum_comm
    _ = _ := Finset.sum_congr rfl fun o1 _ => Finset.sum_comm

theorem py_bind_ok {β γ : Type _} {x : Py β} {f : β → Py γ} {c : γ} (h : (x >>= f) = .ok c) :
    ∃ b, x = .ok b ∧ f b = .ok c := by
  cases x with
  | error e => cases h
  | ok b => exact ⟨b, rfl, h⟩

theorem paddingInts_side {K S D P : Nat × Nat} {padding : Padding} (h : paddingInts K S D padding = .ok P) :
    sidePadding K.1 S.1 D.1 true padding = .ok (P.1, P.1) ∧ sidePadding K.2 S.2 D.2 false padding = .ok (P.2, P.2) := by
  cases padding with
  | ints p =>
    simp only [paddingInts, Except.ok.injEq] at h
    subst h
    exact ⟨rfl, rfl⟩
  | str s =>
    have he : ∀ {k st d p : Nat}, equalPadding k st s d = .ok p → getConvPaddings k st s d = .ok (p, p) := by
      intro k st d p hp
      obtain ⟨⟨l, r⟩, h1, h2⟩ := py_bind_ok hp
      simp only at h2
      split at h2
      · cases h2
      · rename_i hlr
        simp only [Except.ok.injEq] at h2
        rw [h1]
        simp only [ne_eq, not_not] at hlr
        rw [← h2, ← hlr]
    obtain ⟨p1, h1, h2⟩ := py_bind_ok h
    obtain ⟨p2, h3, h4⟩ := py_bind_ok h2
    simp only [Except.ok.injEq] at h4
    subst h4
    exact ⟨he h1, he h3⟩

/-- C37: whenever `extract_patches` returns, `extract_averaged_patches` returns the mean of its rows. -/
theorem averagedPatches_eq_mean (x : Image α) (kernel stride : IntOrPair) (padding : Padding) (dilation : IntOrPair)
    (groups : Nat) (P : DMat α) (h : extractPatches x kernel stride padding dilation groups = .ok P) :
    ∃ a, extractAveragedPatches x kernel stride padding dilation groups = .ok (P.cols, a) ∧
      ∀ f, a f = (∑ o ∈ Finset.range P.rows, P.val o f) / P.rows := by
  unfold extractPatches at h
  obtain ⟨p, hp, h⟩ := py_bind_ok h
  obtain ⟨y, hy, h⟩ := py_bind_ok h
  obtain ⟨u, hu, h⟩ := py_bind_ok h
  simp only [Except.ok.injEq] at h
  subst h
  unfold unfold at hu
  obtain ⟨O1, h1, hu⟩ := py_bind_ok hu
  obtain ⟨O2, h2, hu⟩ := py_bind_ok hu
  simp only [Except.ok.injEq] at hu
  subst hu
  obtain ⟨s1, s2⟩ := paddingInts_side hp
  have hO2 : 0 < O2 := by
    unfold convOutSize at h2
    split at h2
    · cases h2
    · simp only [Except.ok.injEq] at h2
      exact h2 ▸ Nat.succ_pos _
  refine ⟨fun f => ∑ i1 ∈ Finset.range y.I1, ∑ i2 ∈ Finset.range y.I2, y.val (f / (kernel.both.1 * kernel.both.2)) i1 i2 *
    ((∑ o ∈ Finset.range O1, if (i1 : Int) = ((f / kernel.both.2 % kernel.both.1 * dilation.both.1 + o * stride.both.1 : Nat) : Int)
      - p.1 then (1 : α) else 0) / O1) *
    ((∑ o ∈ Finset.range O2, if (i2 : Int) = ((f % kernel.both.2 * dilation.both.2 + o * stride.both.2 : Nat) : Int) - p.2
      then (1 : α) else 0) / O2), ?_, ?_⟩
  · unfold extractAveragedPatches
    rw [hy]
    simp only [bind, Except.bind]
    rw [s1, s2]
    simp only [meanPattern, indexPattern, h1, h2, bind, Except.bind]
  · intro f
    simp only
    rw [averaged_core y kernel.both stride.both dilation.both p O1 O2 f, sum_range_mul']
    congr 1
    refine Finset.sum_congr rfl fun o1 _ => Finset.sum_congr rfl fun o2 ho2 => ?_
    have ho2 := Finset.mem_range.mp ho2
    rw [Nat.mul_comm o1 O2, Nat.mul_add_div hO2, Nat.div_eq_of_lt ho2, Nat.add_zero, Nat.mul_add_mod, Nat.mod_eq_of_lt ho2]

/-- C37, the other direction: if `extract_averaged_patches` returns, `extract_patches` returns, or it raises
`NotImplementedError` for `padding="same"` and a dimension in which `dilation * (kernel_size - 1)` is odd. -/
theorem extractPatches_of_averaged (x : Image α) (kernel stride : IntOrPair) (padding : Padding) (dilation : IntOrPair)
    (groups : Nat) (r : Nat × (Nat → α)) (h : extractAveragedPatches x kernel stride padding dilation groups = .ok r) :
    (∃ P, extractPatches x kernel stride padding dilation groups = .ok P) ∨
    (extractPatches x kernel stride padding dilation groups = .error .notImplementedError ∧ padding = .str "same" ∧
      (dilation.both.1 * (kernel.both.1 - 1) % 2 = 1 ∨ dilation.both.2 * (kernel.both.2 - 1) % 2 = 1)) := by
  unfold extractAveragedPatches at h
  obtain ⟨y, hy, h⟩ := py_bind_ok h
  simp only at h
  obtain ⟨⟨l1, r1⟩, hs1, h⟩ := py_bind_ok h
  simp only at h
  obtain ⟨pi1, hm1, h⟩ := py_bind_ok h
  obtain ⟨⟨l2, r2⟩, hs2, h⟩ := py_bind_ok h
  simp only at h
  obtain ⟨pi2, hm2, h⟩ := py_bind_ok h
  obtain ⟨⟨O1, q1⟩, hi1, -⟩ := py_bind_ok hm1
  obtain ⟨⟨O2, q2⟩, hi2, -⟩ := py_bind_ok hm2
  obtain ⟨O1', hc1, -⟩ := py_bind_ok hi1
  obtain ⟨O2', hc2, -⟩ := py_bind_ok hi2
  have hok : ∀ P : Nat × Nat, paddingInts kernel.both stride.both dilation.both padding = .ok P → l1 = P.1 → r1 = P.1 →
      l2 = P.2 → r2 = P.2 → ∃ Q, extractPatches x kernel stride padding dilation groups = .ok Q := by
    intro P hP e1 e2 e3 e4
    subst e1 e3
    rw [e2] at hc1
    rw [e4] at hc2
    have hQ : ∃ u, unfold y kernel.both dilation.both P stride.both = .ok u := by
      unfold unfold
      simp only [bind, Except.bind, hc1, hc2]
      exact ⟨_, rfl⟩
    obtain ⟨u, hu⟩ := hQ
    unfold extractPatches
    simp only [hP, hy, bind, Except.bind, hu]
    exact ⟨_, rfl⟩
  cases padding with
  | ints p =>
    simp only [sidePadding, if_true, Bool.false_eq_true, if_false, Except.ok.injEq, Prod.mk.injEq] at hs1 hs2
    exact Or.inl (hok p.both rfl hs1.1.symm hs1.2.symm hs2.1.symm hs2.2.symm)
  | str s =>
    simp only [sidePadding] at hs1 hs2
    by_cases e1 : l1 = r1
    · by_cases e2 : l2 = r2
      · refine Or.inl (hok (l1, l2) ?_ rfl e1.symm rfl e2.symm)
        simp only [paddingInts, equalPadding, hs1, hs2, bind, Except.bind, e1, e2, ne_eq, not_true_eq_false, if_false]
      · refine Or.inr ⟨?_, ?_⟩
        · simp only [extractPatches, paddingInts, equalPadding, hs1, hs2, bind, Except.bind, e1, ne_eq, not_true_eq_false,
            if_false, e2, not_false_eq_true, if_true]
        · unfold getConvPaddings at hs2
          split at hs2
          · simp only [Except.ok.injEq, Prod.mk.injEq] at hs2
            exact absurd (hs2.1.symm.trans hs2.2) e2
          · split at hs2
            · rename_i _ hsame
              split at hs2
              · cases hs2
              · simp only [Except.ok.injEq, Prod.mk.injEq] at hs2
                exact ⟨by rw [hsame], Or.inr (by omega)⟩
            · cases hs2
    · refine Or.inr ⟨?_, ?_⟩
      · simp only [extractPatches, paddingInts, equalPadding, hs1, bind, Except.bind, e1, ne_eq, not_false_eq_true, if_true]
      · unfold getConvPaddings at hs1
        split at hs1
        · simp only [Except.ok.injEq, Prod.mk.injEq] at hs1
          exact absurd (hs1.1.symm.trans hs1.2) e1
        · split at hs1
          · rename_i _ hsame
            split at hs1
            · cases hs1
            · simp only [Except.ok.injEq, Prod.mk.injEq] at hs1
              exact ⟨by rw [hsame], Or.inl (by omega)⟩
          · cases hs1

/-! ## C38 -/

theorem padded_eq_read (x : Image α) (c : Nat) (i j : Int) : x.padded c i j = x.read c i j .zeros := by
  unfold Image.padded Image.read
  simp only [and_assoc]

/-- C38: for one group and `padding_mode="zeros"` (integer paddings `P`), the output of the convolution at the location
`(o1, o2)` is the product of the weight, flattened to a matrix as in the products with KFAC, with row `o1 * O2 + o2` of
`extract_patches`. The number of locations is that of the convolution. -/
theorem conv_eq_patches (x : Image α) (kernel stride dilation P : IntOrPair) (R : DMat α)
    (h : extractPatches x kernel stride (.ints P) dilation 1 = .ok R) (W : Tensor α) (O : Nat)
    (hW : W.shape = [O, x.C, kernel.both.1, kernel.both.2]) :
    ∃ O1 O2 : Nat, R.rows = O1 * O2 ∧
      (O1 : Int) = convLocations x.I1 kernel.both.1 stride.both.1 P.both.1 dilation.both.1 ∧
      (O2 : Int) = convLocations x.I2 kernel.both.2 stride.both.2 P.both.2 dilation.both.2 ∧
      R.cols = (W.shape.tail).prod ∧
      ∀ o, ∀ o1 < O1, ∀ o2 < O2,
        conv2d .zeros x (fun o c k1 k2 => W.data.getD (((o * x.C + c) * kernel.both.1 + k1) * kernel.both.2 + k2) 0)
            kernel.both stride.both dilation.both P.both o o1 o2 =
          ∑ f ∈ Finset.range R.cols, W.data.getD (o * R.cols + f) 0 * R.val (o1 * O2 + o2) f := by
  unfold extractPatches at h
  obtain ⟨p, hp, h⟩ := py_bind_ok h
  simp only [paddingInts, Except.ok.injEq] at hp
  subst hp
  obtain ⟨y, hy, h⟩ := py_bind_ok h
  obtain ⟨u, hu, h⟩ := py_bind_ok h
  simp only [Except.ok.injEq] at h
  subst h
  have hyx : y.C = x.C ∧ y.I1 = x.I1 ∧ y.I2 = x.I2 ∧ y.val = x.val := by
    unfold averageGroups at hy
    rw [if_neg (by simp [Nat.mod_one])] at hy
    simp only [Except.ok.injEq] at hy
    subst hy
    simp
  obtain ⟨C, I1, I2, v⟩ := y
  obtain ⟨C', I1', I2', v'⟩ := x
  obtain ⟨rfl, rfl, rfl, rfl⟩ := hyx
  clear hy
  unfold unfold at hu
  obtain ⟨O1, h1, hu⟩ := py_bind_ok hu
  obtain ⟨O2, h2, hu⟩ := py_bind_ok hu
  simp only [Except.ok.injEq] at hu
  subst hu
  have hloc : ∀ {I k s p d n : Nat}, convOutSize I k s p p d = .ok n → 0 < n ∧ 0 < k ∧ (n : Int) = convLocations I k s p d := by
    intro I k s p d n hn
    unfold convOutSize at hn
    split at hn
    · cases hn
    · rename_i hc
      simp only [Except.ok.injEq] at hn
      simp only [not_or, not_lt] at hc
      obtain ⟨hk, -, hI⟩ := hc
      refine ⟨hn ▸ Nat.succ_pos _, by omega, ?_⟩
      subst hn
      obtain ⟨k, rfl⟩ := Nat.exists_eq_succ_of_ne_zero hk
      unfold convLocations
      simp only [Nat.succ_eq_add_one, Nat.add_sub_cancel] at hI ⊢
      push_cast [Nat.cast_sub hI]
      congr 2
      ring
  obtain ⟨-, hk1, hl1⟩ := hloc h1
  obtain ⟨hO2, hk2, hl2⟩ := hloc h2
  refine ⟨O1, O2, rfl, hl1, hl2, by simp [hW], ?_⟩
  intro o o1 ho1 o2 ho2
  simp only [conv2d]
  rw [sum_range_mul']
  refine Finset.sum_congr rfl fun c _ => ?_
  rw [sum_range_mul']
  refine Finset.sum_congr rfl fun k1 hk1' => Finset.sum_congr rfl fun k2 hk2' => ?_
  have hk1' := Finset.mem_range.mp hk1'
  have hk2' := Finset.mem_range.mp hk2'
  have hkk : k1 * kernel.both.2 + k2 < kernel.both.1 * kernel.both.2 := by
    calc k1 * kernel.both.2 + k2 < k1 * kernel.both.2 + kernel.both.2 := by omega
      _ = (k1 + 1) * kernel.both.2 := by ring
      _ ≤ _ := Nat.mul_le_mul_right _ hk1'
  have e1 : (c * (kernel.both.1 * kernel.both.2) + (k1 * kernel.both.2 + k2)) / (kernel.both.1 * kernel.both.2) = c := by
    rw [Nat.mul_comm c, Nat.mul_add_div (Nat.mul_pos hk1 hk2), Nat.div_eq_of_lt hkk, Nat.add_zero]
  have e0 : c * (kernel.both.1 * kernel.both.2) + (k1 * kernel.both.2 + k2) = kernel.both.2 * (c * kernel.both.1 + k1) + k2 := by
    ring
  have e2 : (c * (kernel.both.1 * kernel.both.2) + (k1 * kernel.both.2 + k2)) / kernel.both.2 % kernel.both.1 = k1 := by
    rw [e0, Nat.mul_add_div hk2, Nat.div_eq_of_lt hk2', Nat.add_zero, Nat.mul_comm c, Nat.mul_add_mod, Nat.mod_eq_of_lt hk1']
  have e3 : (c * (kernel.both.1 * kernel.both.2) + (k1 * kernel.both.2 + k2)) % kernel.both.2 = k2 := by
    rw [e0, Nat.mul_add_mod, Nat.mod_eq_of_lt hk2']
  have e4 : (o1 * O2 + o2) / O2 = o1 := by
    rw [Nat.mul_comm, Nat.mul_add_div hO2, Nat.div_eq_of_lt ho2, Nat.add_zero]
  have e5 : (o1 * O2 + o2) % O2 = o2 := by
    rw [Nat.mul_comm, Nat.mul_add_mod, Nat.mod_eq_of_lt ho2]
  rw [e1, e2, e3, e4, e5, padded_eq_read]
  congr 1
  congr 1
  ring

/-- C38 for paddings given as strings: `extract_patches` returns what it returns for the integers that `Conv2d` pads with on
both sides, so `conv_eq_patches` applies to them. -/
theorem extractPatches_str (x : Image α) (kernel stride dilation : IntOrPair) (groups : Nat) (s : String) (R : DMat α)
    (h : extractPatches x kernel stride (.str s) dilation groups = .ok R) :
    ∃ p1 p2, extractPatches x kernel stride (.ints (.pair p1 p2)) dilation groups = .ok R ∧
      ((s = "valid" ∧ p1 = 0 ∧ p2 = 0) ∨
       (s = "same" ∧ stride.both = (1, 1) ∧ 2 * p1 = dilation.both.1 * (kernel.both.1 - 1) ∧
        2 * p2 = dilation.both.2 * (kernel.both.2 - 1))) := by
  unfold extractPatches at h
  obtain ⟨p, hp, h⟩ := py_bind_ok h
  refine ⟨p.1, p.2, h, ?_⟩
  have hs := paddingInts_side hp
  simp only [sidePadding, getConvPaddings] at hs
  by_cases hv : s = "valid"
  · simp only [hv, if_true, Except.ok.injEq, Prod.mk.injEq] at hs
    exact Or.inl ⟨hv, by omega, by omega⟩
  · simp only [if_neg hv] at hs
    by_cases hsm : s = "same"
    · simp only [if_pos hsm] at hs
      obtain ⟨h1, h2⟩ := hs
      split at h1
      · cases h1
      · split at h2
        · cases h2
        · simp only [Except.ok.injEq, Prod.mk.injEq] at h1 h2
          refine Or.inr ⟨hsm, Prod.ext ?_ ?_, by omega, by omega⟩ <;> simp only <;> omega
    · simp only [if_neg hsm] at hs
      cases hs.1

/-- The rows of the gradients of the output, `rearrange(g, "batch c o1 o2 -> batch o1 o2 c")` (`kfac.py:641-646`), are in the
same order: row `o1 * O2 + o2` belongs to the location `(o1, o2)`. So the gradient of a scalar function of the
convolution's output with gradient `g` with respect to the flattened weight is the sum of outer products of the rows. -/
theorem conv_weight_gradient (x : Image α) (kernel stride dilation P : IntOrPair) (R : DMat α)
    (h : extractPatches x kernel stride (.ints P) dilation 1 = .ok R) (W : Tensor α) (O : Nat)
    (hW : W.shape = [O, x.C, kernel.both.1, kernel.both.2]) (O1 O2 : Nat) (hR : R.rows = O1 * O2)
    (h2 : (O2 : Int) = convLocations x.I2 kernel.both.2 stride.both.2 P.both.2 dilation.both.2) (hO2 : 0 < O2)
    (g : Nat → Nat → Nat → α) :
    ∑ o ∈ Finset.range O, ∑ o1 ∈ Finset.range O1, ∑ o2 ∈ Finset.range O2, g o o1 o2 *
        conv2d .zeros x (fun o c k1 k2 => W.data.getD (((o * x.C + c) * kernel.both.1 + k1) * kernel.both.2 + k2) 0)
            kernel.both stride.both dilation.both P.both o o1 o2 =
      ∑ o ∈ Finset.range O, ∑ f ∈ Finset.range R.cols, W.data.getD (o * R.cols + f) 0 *
        ∑ s ∈ Finset.range R.rows, g o (s / O2) (s % O2) * R.val s f := by
  obtain ⟨O1', O2', hr, -, hl2, -, hc⟩ := conv_eq_patches x kernel stride dilation P R h W O hW
  have : O2' = O2 := by exact_mod_cast hl2.trans h2.symm
  subst this
  have : O1' = O1 := Nat.eq_of_mul_eq_mul_right hO2 (hr.symm.trans hR)
  subst this
  refine Finset.sum_congr rfl fun o _ => ?_
  rw [hR]
  simp only [Finset.mul_sum]
  rw [Finset.sum_comm (s := Finset.range R.cols), sum_range_mul']
  refine Finset.sum_congr rfl fun o1 ho1 => Finset.sum_congr rfl fun o2 ho2 => ?_
  have ho2' := Finset.mem_range.mp ho2
  rw [hc o o1 (Finset.mem_range.mp ho1) o2 ho2', Finset.mul_sum]
  refine Finset.sum_congr rfl fun f _ => ?_
  rw [Nat.mul_comm o1, Nat.mul_add_div hO2, Nat.div_eq_of_lt ho2', Nat.add_zero, Nat.mul_add_mod, Nat.mod_eq_of_lt ho2']
  ring

/-! ## C69: groups -/

/-- The channels that group `g` of a convolution with `G` groups reads: by the documentation of `torch.nn.Conv2d`, the
`g`-th of `G` consecutive parts. -/
def Image.group (x : Image α) (G g : Nat) : Image α := ⟨x.C / G, x.I1, x.I2, fun c => x.val (g * (x.C / G) + c)⟩

/-- C69: for integer paddings, `extract_patches` succeeds exactly if the groups divide the channels and the kernel fits into the
padded image. -/
theorem extractPatches_ok_iff (x : Image α) (kernel stride dilation P : IntOrPair) (G : Nat) :
    (∃ R, extractPatches x kernel stride (.ints P) dilation G = .ok R) ↔
      (G ≠ 0 ∧ G ∣ x.C) ∧
      (kernel.both.1 ≠ 0 ∧ stride.both.1 ≠ 0 ∧ dilation.both.1 * (kernel.both.1 - 1) + 1 ≤ x.I1 + 2 * P.both.1) ∧
      (kernel.both.2 ≠ 0 ∧ stride.both.2 ≠ 0 ∧ dilation.both.2 * (kernel.both.2 - 1) + 1 ≤ x.I2 + 2 * P.both.2) := by
  have hout : ∀ i k s p d : Nat, (∃ o, convOutSize i k s p p d = .ok o) ↔ k ≠ 0 ∧ s ≠ 0 ∧ d * (k - 1) + 1 ≤ i + 2 * p := by
    intro i k s p d
    unfold convOutSize
    split_ifs with h
    · simp only [exists_false, false_iff]; omega
    · simp only [Except.ok.injEq, exists_eq', true_iff]; omega
  rw [← hout, ← hout, Nat.dvd_iff_mod_eq_zero]
  constructor
  · rintro ⟨R, h⟩
    obtain ⟨P', hP, h⟩ := py_bind_ok h
    cases hP
    obtain ⟨x', hx, h⟩ := py_bind_ok h
    obtain ⟨u, hu, -⟩ := py_bind_ok h
    unfold averageGroups at hx
    split_ifs at hx with hg
    cases hx
    obtain ⟨o1, h1, hu⟩ := py_bind_ok hu
    obtain ⟨o2, h2, -⟩ := py_bind_ok hu
    exact ⟨by simpa [not_or] using hg, ⟨o1, h1⟩, ⟨o2, h2⟩⟩
  · rintro ⟨⟨hG, hC⟩, ⟨o1, h1⟩, ⟨o2, h2⟩⟩
    simp [extractPatches, paddingInts, averageGroups, hG, hC, unfold, h1, h2, bind, Except.bind]

/-- C69: for every number of groups `G` that divides the number of channels, the product of row `o1 * O2 + o2` of
`extract_patches` with a flattened kernel is the average over the groups of the outputs of the convolution with this
kernel at the location `(o1, o2)`. -/
theorem patches_groups (x : Image α) (kernel stride dilation P : IntOrPair) (G : Nat) (R : DMat α)
    (h : extractPatches x kernel stride (.ints P) dilation G = .ok R) (W : Tensor α) (O : Nat)
    (hW : W.shape = [O, x.C / G, kernel.both.1, kernel.both.2]) :
    G ≠ 0 ∧ G ∣ x.C ∧ ∃ O1 O2 : Nat, R.rows = O1 * O2 ∧
      (O1 : Int) = convLocations x.I1 kernel.both.1 stride.both.1 P.both.1 dilation.both.1 ∧
      (O2 : Int) = convLocations x.I2 kernel.both.2 stride.both.2 P.both.2 dilation.both.2 ∧
      R.cols = (W.shape.tail).prod ∧
      ∀ o, ∀ o1 < O1, ∀ o2 < O2,
        ∑ f ∈ Finset.range R.cols, W.data.getD (o * R.cols + f) 0 * R.val (o1 * O2 + o2) f =
          (∑ g ∈ Finset.range G, conv2d .zeros (x.group G g)
            (fun o c k1 k2 => W.data.getD (((o * (x.C / G) + c) * kernel.both.1 + k1) * kernel.both.2 + k2) 0)
            kernel.both stride.both dilation.both P.both o o1 o2) / G := by
  have h' := h
  unfold extractPatches at h
  obtain ⟨p, hp, h⟩ := py_bind_ok h
  obtain ⟨y, hy, h⟩ := py_bind_ok h
  have hy' := hy
  unfold averageGroups at hy
  split at hy
  · cases hy
  rename_i hG
  simp only [not_or, ne_eq, not_not] at hG
  refine ⟨hG.1, Nat.dvd_of_mod_eq_zero hG.2, ?_⟩
  simp only [Except.ok.injEq] at hy
  have hy1 : averageGroups 1 y = .ok y := by
    unfold averageGroups
    rw [if_neg (by simp [Nat.mod_one])]
    simp
  have hex : extractPatches y kernel stride (.ints P) dilation 1 = .ok R := by
    unfold extractPatches
    rw [hp]
    simp only [bind, Except.bind, hy1]
    exact h
  obtain ⟨O1, O2, h1, h2, h3, h4, h5⟩ := conv_eq_patches y kernel stride dilation P R hex W O (by rw [hW, ← hy])
  subst hy
  refine ⟨O1, O2, h1, h2, h3, h4, fun o o1 ho1 o2 ho2 => ?_⟩
  rw [← h5 o o1 ho1 o2 ho2]
  simp only [conv2d, Image.group, Finset.sum_div]
  refine Eq.trans ?_ Finset.sum_comm
  refine Finset.sum_congr rfl fun c _ => ?_
  refine Eq.trans ?_ Finset.sum_comm
  refine Finset.sum_congr rfl fun k1 _ => ?_
  refine Eq.trans ?_ Finset.sum_comm
  refine Finset.sum_congr rfl fun k2 _ => ?_
  simp only [Image.read]
  split
  · rw [Finset.mul_sum]
    exact Finset.sum_congr rfl fun g _ => by rw [mul_div_assoc]
  · simp

/-! ## Examples -/

/-- A `2 × 2` image with entries 1, 2, 3, 4. -/
def squareImage : Image ℚ := ⟨1, 2, 2, fun _ i j => 2 * i + j + 1⟩

/-- Kernel 2 × 2, padding 1, stride 2: four locations, each sees one pixel. -/
example : ∃ R, extractPatches squareImage (.int 2) (.int 2) (.ints (.int 1)) (.int 1) 1 = .ok R ∧ R.rows = 4 ∧ R.cols = 4 ∧
    R.val 0 3 = 1 ∧ R.val 1 2 = 2 ∧ R.val 2 1 = 3 ∧ R.val 3 0 = 4 ∧ R.val 3 1 = 0 := by
  refine ⟨_, rfl, rfl, rfl, ?_⟩
  simp [Image.padded, squareImage, IntOrPair.both]
  norm_num

/-- The averages of the example's patches are a quarter of the pixels. -/
example : ∃ a, extractAveragedPatches squareImage (.int 2) (.int 2) (.ints (.int 1)) (.int 1) 1 = .ok (4, a) ∧
    a 0 = 1 ∧ a 3 = 1 / 4 := by
  obtain ⟨a, ha, hv⟩ := averagedPatches_eq_mean squareImage (.int 2) (.int 2) (.ints (.int 1)) (.int 1) 1 _ rfl
  refine ⟨a, ha, ?_, ?_⟩
  · rw [hv]
    simp [Image.padded, squareImage, IntOrPair.both, Finset.sum_range_succ]
    norm_num
  · rw [hv]
    simp [Image.padded, squareImage, IntOrPair.both, Finset.sum_range_succ]

/-- `padding="same"` with an even kernel: only the averaged patches are available. -/
example : extractPatches squareImage (.int 2) (.int 1) (.str "same") (.int 1) 1 = .error .notImplementedError ∧
    ∃ a, extractAveragedPatches squareImage (.int 2) (.int 1) (.str "same") (.int 1) 1 = .ok (4, a) :=
  ⟨rfl, _, rfl⟩

/-- The image `(1, 2)`. -/
def rowImage : Image ℚ := ⟨1, 1, 2, fun _ _ j => j + 1⟩

/-- The kernel `(1, 1)`. -/
def onesKernel : Tensor ℚ := ⟨[1, 1, 1, 2], [1, 1]⟩

/-- C38 is violated for `padding_mode="circular"`, which KFAC accepts and ignores (`kfac.py:686-700` do not look at it): the
convolution with the kernel `(1, 1)` of the image `(1, 2)` with padding 1 is 3 at the first location, the product with the
first patch is 1. -/
theorem circular_padding_witness :
    ∃ R, extractPatches rowImage (.pair 1 2) (.int 1) (.ints (.pair 0 1)) (.int 1) 1 = .ok R ∧ R.rows = 3 ∧
      conv2d .circular rowImage (fun o c k1 k2 => onesKernel.data.getD (((o * 1 + c) * 1 + k1) * 2 + k2) 0)
        (1, 2) (1, 1) (1, 1) (0, 1) 0 0 0 = 3 ∧
      ∑ f ∈ Finset.range R.cols, onesKernel.data.getD (0 * R.cols + f) 0 * R.val 0 f = 1 := by
  refine ⟨_, rfl, rfl, ?_, ?_⟩
  · simp [conv2d, Image.read, rowImage, onesKernel, Finset.sum_range_succ]
    norm_num
  · simp [Image.padded, rowImage, onesKernel, IntOrPair.both, Finset.sum_range_succ]

/-- The theorem on the same image with zero padding: the outputs are 1, 3, 2. -/
example : (∀ o2 < 3, conv2d .zeros rowImage (fun o c k1 k2 => onesKernel.data.getD (((o * 1 + c) * 1 + k1) * 2 + k2) 0)
    (1, 2) (1, 1) (1, 1) (0, 1) 0 0 o2 = [1, 3, 2].getD o2 0) := by
  intro o2 h
  interval_cases o2 <;> simp [conv2d, Image.read, rowImage, onesKernel, Finset.sum_range_succ] <;> norm_num

/-- Four channels of one pixel, with values 1, 2, 3, 4. -/
def channelImage : Image ℚ := ⟨4, 1, 1, fun c _ _ => c + 1⟩

/-- Two groups: the channels 1, 2 and 3, 4; the average patch is `(2, 3)`, and the theorem's two sides are 8 for the kernel
`(1, 2)`. -/
example : ∃ R, extractPatches channelImage (.int 1) (.int 1) (.ints (.int 0)) (.int 1) 2 = .ok R ∧ R.cols = 2 ∧
    R.val 0 0 = 2 ∧ R.val 0 1 = 3 ∧
    (∑ g ∈ Finset.range 2, conv2d .zeros (channelImage.group 2 g) (fun _ c _ _ => c + 1) (1, 1) (1, 1) (1, 1) (0, 0) 0 0 0) / 2
      = 8 := by
  refine ⟨_, rfl, rfl, ?_, ?_, ?_⟩
  · simp [Image.padded, channelImage, IntOrPair.both, Finset.sum_range_succ]
    norm_num
  · simp [Image.padded, channelImage, IntOrPair.both, Finset.sum_range_succ]
    norm_num
  · simp [conv2d, Image.read, Image.group, channelImage, Finset.sum_range_succ]
    norm_num

/-! ## Integers and pairs -/

/-- What a hyper-parameter of a convolution means in both dimensions: an integer is used for both. -/
inductive IntOrPair.Means : IntOrPair → Nat → Nat → Prop
  | int (n : Nat) : Means (.int n) n n
  | pair (a b : Nat) : Means (.pair a b) a b

/-- What the padding means: integers as above, strings as they are. -/
inductive Padding.Means : Padding → Padding → Prop
  | ints (p : IntOrPair) (a b : Nat) (h : p.Means a b) : Means (.ints p) (.ints (.pair a b))
  | str (s : String) : Means (.str s) (.str s)

theorem IntOrPair.Means.both {p : IntOrPair} {a b : Nat} (h : p.Means a b) : p.both = (a, b) := by
  cases h <;> rfl

/-- C37, C38: integers and pairs of equal integers can be exchanged in all hyper-parameters, for the results and for the exceptions. -/
theorem patches_int_pair (x : Image α) {kernel stride dilation : IntOrPair} {padding padding' : Padding} {k1 k2 s1 s2 d1 d2 : Nat}
    (hk : kernel.Means k1 k2) (hs : stride.Means s1 s2) (hd : dilation.Means d1 d2) (hp : padding.Means padding') (G : Nat) :
    extractPatches x kernel stride padding dilation G = extractPatches x (.pair k1 k2) (.pair s1 s2) padding' (.pair d1 d2) G ∧
    extractAveragedPatches x kernel stride padding dilation G =
      extractAveragedPatches x (.pair k1 k2) (.pair s1 s2) padding' (.pair d1 d2) G := by
  have e1 : ∀ K S D, paddingInts K S D padding = paddingInts K S D padding' := by
    intro K S D
    cases hp with
    | ints p a b h => simp only [paddingInts, h.both, (IntOrPair.Means.pair a b).both]
    | str s => rfl
  have e2 : ∀ k s d first, sidePadding k s d first padding = sidePadding k s d first padding' := by
    intro k s d first
    cases hp with
    | ints p a b h => simp only [sidePadding, h.both, (IntOrPair.Means.pair a b).both]
    | str s => rfl
  constructor
  · simp only [extractPatches, hk.both, hs.both, hd.both, e1, (IntOrPair.Means.pair _ _).both]
  · simp only [extractAveragedPatches, hk.both, hs.both, hd.both, e2, (IntOrPair.Means.pair _ _).both]

/-- A kernel of size two, given as an integer. -/
example (x : Image ℚ) := patches_int_pair x (.int 2) (.int 1) (.pair 1 1) (.ints _ 0 0 (.int 0)) 1

end Curvlinops
