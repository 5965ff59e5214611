import Verif.Model.KfacProductRounding
import Verif.Props.KfacRoundingPsd
import Verif.Props.KfacProduct
import Verif.Props.KfacDevice
import Verif.Props.KfacSelection

/-!
# C132: rounding errors of products with KFAC
-/

namespace Curvlinops

section relations

variable {ρ : Rounding} {α β γ α' β' γ' : Type _}

/-- A computation in floating point, the exact one, and the one with bounds: all three succeed with related results, or all three
raise the same exception. -/
def Rel3 (R : α → β → γ → Prop) : Py α → Py β → Py γ → Prop
  | .ok x, .ok a, .ok A => R x a A
  | .error e, .error e', .error e'' => e = e' ∧ e = e''
  | _, _, _ => False

theorem Rel3.bind {R : α → β → γ → Prop} {S : α' → β' → γ' → Prop} {x : Py α} {a : Py β} {A : Py γ} (h : Rel3 R x a A)
    {f : α → Py α'} {f' : β → Py β'} {f'' : γ → Py γ'} (hf : ∀ x a A, R x a A → Rel3 S (f x) (f' a) (f'' A)) :
    Rel3 S (x >>= f) (a >>= f') (A >>= f'') := by
  rcases x with e | x <;> rcases a with e' | a <;> rcases A with e'' | A <;> simp only [Rel3] at h
  · exact h
  · exact hf x a A h

theorem Rel3.mono {R S : α → β → γ → Prop} {x : Py α} {a : Py β} {A : Py γ} (h : Rel3 R x a A)
    (hRS : ∀ x a A, R x a A → S x a A) : Rel3 S x a A := by
  rcases x with e | x <;> rcases a with e' | a <;> rcases A with e'' | A <;> simp only [Rel3] at h
  · exact h
  · exact hRS x a A h

/-- Three lists with related entries. -/
def List3 (R : α → β → γ → Prop) : List α → List β → List γ → Prop
  | [], [], [] => True
  | x :: xs, a :: as, A :: As => R x a A ∧ List3 R xs as As
  | _, _, _ => False

theorem List3.length {R : α → β → γ → Prop} : ∀ {xs : List α} {as : List β} {As : List γ}, List3 R xs as As →
    as.length = xs.length ∧ As.length = xs.length
  | [], [], [], _ => ⟨rfl, rfl⟩
  | _ :: _, _ :: _, _ :: _, h => by
    obtain ⟨h1, h2⟩ := List3.length h.2
    simp [h1, h2]
  | [], [], _ :: _, h | [], _ :: _, _, h | _ :: _, [], _, h | _ :: _, _ :: _, [], h => by simp [List3] at h

theorem List3.getElem? {R : α → β → γ → Prop} : ∀ {xs : List α} {as : List β} {As : List γ}, List3 R xs as As → ∀ i : Nat,
    (xs[i]? = none ∧ as[i]? = none ∧ As[i]? = none) ∨ ∃ x a A, xs[i]? = some x ∧ as[i]? = some a ∧ As[i]? = some A ∧ R x a A
  | [], [], [], _, i => Or.inl (by simp)
  | x :: xs, a :: as, A :: As, h, 0 => Or.inr ⟨x, a, A, rfl, rfl, rfl, h.1⟩
  | x :: xs, a :: as, A :: As, h, i + 1 => by simpa using List3.getElem? h.2 i
  | [], [], _ :: _, h, _ | [], _ :: _, _, h, _ | _ :: _, [], _, h, _ | _ :: _, _ :: _, [], h, _ => by simp [List3] at h

theorem List3.append {R : α → β → γ → Prop} : ∀ {xs : List α} {as : List β} {As : List γ} {ys : List α} {bs : List β} {Bs : List γ},
    List3 R xs as As → List3 R ys bs Bs → List3 R (xs ++ ys) (as ++ bs) (As ++ Bs)
  | [], [], [], _, _, _, _, h => h
  | _ :: _, _ :: _, _ :: _, _, _, _, h, h' => ⟨h.1, h.2.append h'⟩
  | [], [], _ :: _, _, _, _, h, _ | [], _ :: _, _, _, _, _, h, _ | _ :: _, [], _, _, _, _, h, _
  | _ :: _, _ :: _, [], _, _, _, h, _ => by simp [List3] at h

theorem List3.flatten {R : α → β → γ → Prop} : ∀ {xs : List (List α)} {as : List (List β)} {As : List (List γ)},
    List3 (List3 R) xs as As → List3 R xs.flatten as.flatten As.flatten
  | [], [], [], _ => by simp [List3]
  | _ :: _, _ :: _, _ :: _, h => by
    simp only [List.flatten_cons]
    exact h.1.append h.2.flatten
  | [], [], _ :: _, h | [], _ :: _, _, h | _ :: _, [], _, h | _ :: _, _ :: _, [], h => by simp [List3] at h

theorem List3.set {R : α → β → γ → Prop} {x : α} {a : β} {A : γ} (hx : R x a A) :
    ∀ {xs : List α} {as : List β} {As : List γ} (i : Nat), List3 R xs as As → List3 R (xs.set i x) (as.set i a) (As.set i A)
  | [], [], [], _, _ => by simp [List3]
  | _ :: _, _ :: _, _ :: _, 0, h => ⟨hx, h.2⟩
  | _ :: _, _ :: _, _ :: _, i + 1, h => ⟨h.1, h.2.set hx i⟩
  | [], [], _ :: _, _, h | [], _ :: _, _, _, h | _ :: _, [], _, _, h | _ :: _, _ :: _, [], _, h => by simp [List3] at h

theorem pyMapM_rel3 {ι : Type _} {R : α → β → γ → Prop} (f : ι → Py α) (f' : ι → Py β) (f'' : ι → Py γ) (L : List ι)
    (h : ∀ t ∈ L, Rel3 R (f t) (f' t) (f'' t)) : Rel3 (List3 R) (pyMapM f L) (pyMapM f' L) (pyMapM f'' L) := by
  induction L with
  | nil => simp [pyMapM, Rel3, List3]
  | cons t L ih =>
    have h1 := h t (by simp)
    have h2 := ih fun t' ht' => h t' (by simp [ht'])
    unfold pyMapM
    revert h1 h2
    generalize f t = x; generalize f' t = a; generalize f'' t = A
    generalize pyMapM f L = xs; generalize pyMapM f' L = as; generalize pyMapM f'' L = As
    intro h1 h2
    rcases x with e | x <;> rcases a with e' | a <;> rcases A with e'' | A <;> simp only [Rel3] at h1
    · exact h1
    · rcases xs with e | xs <;> rcases as with e' | as <;> rcases As with e'' | As <;> simp only [Rel3] at h2
      · exact h2
      · exact ⟨h1, h2⟩

theorem listGet_rel3 {R : α → β → γ → Prop} {xs : List α} {as : List β} {As : List γ} (h : List3 R xs as As) (i : Nat) :
    Rel3 R (listGet xs i) (listGet as i) (listGet As i) := by
  unfold listGet
  rcases h.getElem? i with ⟨h1, h2, h3⟩ | ⟨x, a, A, h1, h2, h3, h4⟩
  · rw [h1, h2, h3]; exact ⟨rfl, rfl⟩
  · rw [h1, h2, h3]; exact h4

/-- Related optional values. -/
def Option3 (R : α → β → γ → Prop) : Option α → Option β → Option γ → Prop
  | some x, some a, some A => R x a A
  | none, none, none => True
  | _, _, _ => False

theorem allSome_rel3 {R : α → β → γ → Prop} : ∀ {xs : List (Option α)} {as : List (Option β)} {As : List (Option γ)},
    List3 (Option3 R) xs as As → Rel3 (List3 R) (allSome xs) (allSome as) (allSome As)
  | [], [], [], _ => by simp [allSome, Rel3, List3]
  | none :: _, none :: _, none :: _, _ => ⟨rfl, rfl⟩
  | some x :: xs, some a :: as, some A :: As, h => by
    have h2 := allSome_rel3 h.2
    have h1 : R x a A := h.1
    unfold allSome
    revert h2
    generalize allSome xs = x'; generalize allSome as = a'; generalize allSome As = A'
    intro h2
    rcases x' with e | x' <;> rcases a' with e' | a' <;> rcases A' with e'' | A' <;> simp only [Rel3] at h2
    · exact h2
    · exact ⟨h1, h2⟩
  | none :: _, none :: _, some _ :: _, h | none :: _, some _ :: _, _ :: _, h | some _ :: _, none :: _, _ :: _, h
  | some _ :: _, some _ :: _, none :: _, h => by simp [List3, Option3] at h
  | [], [], _ :: _, h | [], _ :: _, _, h | _ :: _, [], _, h | _ :: _, _ :: _, [], h => by simp [List3] at h

theorem assignAll_rel3 {R : α → β → γ → Prop} (n : Nat) {xs : List (Nat × α)} {as : List (Nat × β)} {As : List (Nat × γ)}
    (h : List3 (fun x a A => a.1 = x.1 ∧ A.1 = x.1 ∧ R x.2 a.2 A.2) xs as As) :
    List3 (Option3 R) (assignAll n xs) (assignAll n as) (assignAll n As) := by
  unfold assignAll
  have h0 : List3 (Option3 R) (List.replicate n none) (List.replicate n none) (List.replicate n none) := by
    induction n with
    | zero => simp [List3]
    | succ n ih => exact ⟨trivial, ih⟩
  revert h0
  generalize List.replicate n (none : Option α) = s
  generalize List.replicate n (none : Option β) = s'
  generalize List.replicate n (none : Option γ) = s''
  intro h0
  induction xs generalizing as As s s' s'' with
  | nil =>
    match as, As, h with
    | [], [], _ => exact h0
  | cons x xs ih =>
    match as, As, h with
    | a :: as, A :: As, h =>
      obtain ⟨⟨h1, h2, h3⟩, h4⟩ := h
      simp only [List.foldl_cons]
      refine ih h4 _ _ _ ?_
      rw [h1, h2]
      exact h0.set (R := Option3 R) (x := some x.2) (a := some a.2) (A := some A.2) h3 x.1

end relations

/-! ## Tensors -/

section tensors

variable {ρ : Rounding}

/-- A tensor computed with accuracy `g`, the exact tensor, and bounds on its entries. -/
def TensorWithin (g : ℝ) (x : Tensor (Fl ρ)) (a A : Tensor ℝ) : Prop :=
  a.shape = x.shape ∧ A.shape = x.shape ∧ (∀ i : Nat, Within g (x.data.getD i 0) (a.data.getD i 0) (A.data.getD i 0)) ∧
    a.data.length = x.data.length ∧ A.data.length = x.data.length

/-- A Kronecker factor computed with accuracy `g`, the exact factor, and bounds on its entries. -/
def FactorWithin (g : ℝ) (x : Factor (Fl ρ)) (a A : Factor ℝ) : Prop :=
  a.dim = x.dim ∧ A.dim = x.dim ∧ ∀ i < x.dim, ∀ j < x.dim, Within g (x.mat i j) (a.mat i j) (A.mat i j)

theorem TensorWithin.mono {g h : ℝ} {x : Tensor (Fl ρ)} {a A : Tensor ℝ} (hx : TensorWithin g x a A) (hgh : g ≤ h) :
    TensorWithin h x a A := ⟨hx.1, hx.2.1, fun i => (hx.2.2.1 i).mono hgh, hx.2.2.2⟩

theorem within_zero (g : ℝ) : Within g (0 : Fl ρ) 0 0 := ⟨by simp, by simp⟩

theorem getD_rangeMap {δ : Type _} (n : Nat) (f : Nat → δ) (i : Nat) (z : δ) :
    ((List.range n).map f).getD i z = if i < n then f i else z := by
  by_cases h : i < n <;> simp [List.getD_eq_getElem?_getD, h]

/-- Tensors given by their entries. -/
theorem tensorWithin_range {g : ℝ} (s : List Nat) (n : Nat) (f : Nat → Fl ρ) (f' f'' : Nat → ℝ)
    (h : ∀ i < n, Within g (f i) (f' i) (f'' i)) :
    TensorWithin g ⟨s, (List.range n).map f⟩ ⟨s, (List.range n).map f'⟩ ⟨s, (List.range n).map f''⟩ := by
  refine ⟨rfl, rfl, fun i => ?_, by simp, by simp⟩
  simp only [getD_rangeMap]
  split_ifs with hi
  · exact h i hi
  · exact within_zero g

/-- Sums of products, in any order. -/
theorem Within.dot (σ : FlSum ρ) {g h : ℝ} (hg : 1 ≤ g) (hh : 1 ≤ h) (d q : Nat) (hd : d ≤ q) (p r : Nat → Fl ρ) (a A b B : Nat → ℝ)
    (hp : ∀ k < d, Within g (p k) (a k) (A k)) (hr : ∀ k < d, Within h (r k) (b k) (B k)) :
    Within (g * h * (1 + ρ.u) ^ q) (σ.sum ((List.range d).map fun k => p k * r k)) (∑ k ∈ Finset.range d, a k * b k)
      (∑ k ∈ Finset.range d, A k * B k) := by
  rw [finset_range_list, finset_range_list]
  have h1 := Within.sum σ (List.range d) (fun k => p k * r k) (fun k => a k * b k) (fun k => A k * B k)
    fun k hk => (hp k (List.mem_range.mp hk)).mul hg (hr k (List.mem_range.mp hk))
  have hgh : 1 ≤ g * h := one_le_mul_of_one_le_of_one_le hg hh
  rcases Nat.eq_zero_or_pos d with rfl | h0
  · have h2 := σ.close []
    simp only [List.map_nil, List.sum_nil, mul_zero] at h2
    refine ⟨by simp, ?_⟩
    simpa using h2
  · refine h1.mono ?_
    rw [List.length_range, mul_assoc (g * h), ← pow_succ']
    refine mul_le_mul_of_nonneg_left (pow_le_pow_right₀ (by linarith [ρ.nonneg]) (by omega)) (by linarith)

theorem mulLeftFl_rel (σ : FlSum ρ) {g h : ℝ} (hg : 1 ≤ g) (hh : 1 ≤ h) {q : Nat} {B : Factor (Fl ρ)} {B' B'' : Factor ℝ}
    (hB : FactorWithin h B B' B'') (hBq : B.dim ≤ q) {t : Tensor (Fl ρ)} {a A : Tensor ℝ} (ht : TensorWithin g t a A)
    (htq : t.shape.headD 0 ≤ q) :
    Rel3 (fun x b C => TensorWithin (h * g * (1 + ρ.u) ^ q) x b C ∧ x.shape.tail = t.shape.tail)
      (mulLeftFl σ B t) (mulLeft B' a) (mulLeft B'' A) := by
  obtain ⟨s, x⟩ := t
  obtain ⟨s', a⟩ := a
  obtain ⟨s'', A⟩ := A
  obtain ⟨h1, h2, h3, hl⟩ := ht
  obtain ⟨hd1, hd2, h4⟩ := hB
  simp only at h1 h2 h3 htq
  subst h1 h2
  unfold mulLeftFl mulLeft
  match s'' with
  | [] => exact ⟨rfl, rfl⟩
  | d :: rest =>
    simp only [List.headD_cons] at htq
    simp only [hd1, hd2]
    split_ifs with c1 c2 c3
    · refine ⟨tensorWithin_range _ _ _ _ _ fun n hn => ?_, rfl⟩
      refine Within.dot σ hh hg d q htq _ _ _ _ _ _ (fun k hk => h4 _ ?_ k (by omega)) fun k _ => h3 _
      rw [← c1]
      exact Nat.div_lt_of_lt_mul (by rwa [mul_comm])
    · refine ⟨tensorWithin_range _ _ _ _ _ fun n hn => ?_, rfl⟩
      refine Within.dot σ hh hg B.dim q hBq _ _ _ _ _ _ (fun k hk => h4 _ ?_ k hk) fun k _ => h3 _
      exact Nat.div_lt_of_lt_mul (by rwa [mul_comm])
    · refine ⟨tensorWithin_range _ _ _ _ _ fun n hn => ?_, rfl⟩
      exact Within.dot σ hh hg d q htq _ _ _ _ _ _ (fun k hk => h4 _ (by omega) _ (by omega)) fun k _ => h3 _
    · exact ⟨rfl, rfl⟩

theorem mulRightFl_rel (σ : FlSum ρ) {g h : ℝ} (hg : 1 ≤ g) (hh : 1 ≤ h) {p : Nat} {B : Factor (Fl ρ)} {B' B'' : Factor ℝ}
    (hB : FactorWithin h B B' B'') (hBp : B.dim ≤ p) {t : Tensor (Fl ρ)} {a A : Tensor ℝ} (ht : TensorWithin g t a A)
    (htp : t.shape.getD 1 0 ≤ p) :
    Rel3 (fun x b C => TensorWithin (g * h * (1 + ρ.u) ^ p) x b C ∧ x.shape.headD 0 = t.shape.headD 0)
      (mulRightFl σ B t) (mulRight B' a) (mulRight B'' A) := by
  obtain ⟨s, x⟩ := t
  obtain ⟨s', a⟩ := a
  obtain ⟨s'', A⟩ := A
  obtain ⟨h1, h2, h3, hl⟩ := ht
  obtain ⟨hd1, hd2, h4⟩ := hB
  simp only at h1 h2 h3 htp
  subst h1 h2
  unfold mulRightFl mulRight
  match s'' with
  | [] | [_] | [_, _] | _ :: _ :: _ :: _ :: _ => exact ⟨rfl, rfl⟩
  | [c, J, K] =>
    have hJ : J ≤ p := by simpa using htp
    simp only [hd1, hd2]
    split_ifs with c1 c2 c3
    · refine ⟨tensorWithin_range _ _ _ _ _ fun n hn => ?_, rfl⟩
      refine Within.dot σ hg hh J p hJ _ _ _ _ _ _ (fun k _ => h3 _) fun k hk => h4 k (by omega) _ ?_
      rw [← c1]
      exact Nat.mod_lt _ (by omega)
    · refine ⟨tensorWithin_range _ _ _ _ _ fun n hn => ?_, rfl⟩
      refine Within.dot σ hg hh B.dim p hBp _ _ _ _ _ _ (fun k _ => h3 _) fun k hk => h4 k hk _ ?_
      exact Nat.mod_lt _ (by omega)
    · refine ⟨tensorWithin_range _ _ _ _ _ fun n hn => ?_, rfl⟩
      exact Within.dot σ hg hh J p hJ _ _ _ _ _ _ (fun k _ => h3 _) fun k hk => h4 _ (by omega) _ (by omega)
    · exact ⟨rfl, rfl⟩

theorem flattenMidFl_rel {g : ℝ} {t : Tensor (Fl ρ)} {a A : Tensor ℝ} (ht : TensorWithin g t a A) :
    Rel3 (fun x b C => TensorWithin g x b C ∧ x.shape.headD 0 = t.shape.headD 0 ∧ x.shape.getD 1 0 = t.shape.tail.dropLast.prod)
      (flattenMidFl t) (flattenMid a) (flattenMid A) := by
  obtain ⟨s, x⟩ := t
  obtain ⟨s', a⟩ := a
  obtain ⟨s'', A⟩ := A
  obtain ⟨h1, h2, h3, hl⟩ := ht
  simp only at h1 h2 h3
  subst h1 h2
  unfold flattenMidFl flattenMid
  match s'' with
  | [] | [_] => exact ⟨rfl, rfl⟩
  | d :: e :: rest => exact ⟨⟨rfl, rfl, h3, hl⟩, rfl, rfl⟩

theorem joinBiasFl_rel {g : ℝ} {w b : Tensor (Fl ρ)} {w' w'' b' b'' : Tensor ℝ} (hw : TensorWithin g w w' w'')
    (hb : TensorWithin g b b' b'') :
    Rel3 (fun x y z => TensorWithin g x y z ∧ x.shape.headD 0 = w.shape.headD 0 ∧ x.shape.getD 1 0 = w.shape.getD 1 0 + 1)
      (joinBiasFl w b) (joinBias w' b') (joinBias w'' b'') := by
  obtain ⟨s, x⟩ := w
  obtain ⟨s', a⟩ := w'
  obtain ⟨s'', A⟩ := w''
  obtain ⟨h1, h2, h3, -⟩ := hw
  simp only at h1 h2 h3
  subst h1 h2
  obtain ⟨g1, g2, g3, -⟩ := hb
  unfold joinBiasFl joinBias
  match s'' with
  | [] | [_] | [_, _] | _ :: _ :: _ :: _ :: _ => exact ⟨rfl, rfl⟩
  | [c, J, K] =>
    simp only [g1, g2]
    split_ifs with c1
    · refine ⟨tensorWithin_range _ _ _ _ _ fun n hn => ?_, rfl, rfl⟩
      split_ifs
      · exact h3 _
      · exact g3 _
    · exact ⟨rfl, rfl⟩

theorem splitBiasFl_rel {g : ℝ} (J : Nat) {t : Tensor (Fl ρ)} {a A : Tensor ℝ} (ht : TensorWithin g t a A) :
    Rel3 (fun x b C => TensorWithin g x.1 b.1 C.1 ∧ TensorWithin g x.2 b.2 C.2)
      (splitBiasFl J t) (splitBias J a) (splitBias J A) := by
  obtain ⟨s, x⟩ := t
  obtain ⟨s', a⟩ := a
  obtain ⟨s'', A⟩ := A
  obtain ⟨h1, h2, h3, hl⟩ := ht
  simp only at h1 h2 h3
  subst h1 h2
  unfold splitBiasFl splitBias
  match s'' with
  | [] | [_] | [_, _] | _ :: _ :: _ :: _ :: _ => exact ⟨rfl, rfl⟩
  | [c, J', K] =>
    simp only
    split_ifs with c1
    · exact ⟨tensorWithin_range _ _ _ _ _ fun n _ => h3 _, tensorWithin_range _ _ _ _ _ fun n _ => h3 _⟩
    · exact ⟨rfl, rfl⟩

theorem reshape_rel {g : ℝ} (s : List Nat) {t : Tensor (Fl ρ)} {a A : Tensor ℝ} (ht : TensorWithin g t a A) :
    Rel3 (TensorWithin g) (t.reshape s) (a.reshape s) (A.reshape s) := by
  unfold Tensor.reshape
  rw [ht.1, ht.2.1]
  split_ifs
  · exact ⟨rfl, rfl, ht.2.2⟩
  · exact ⟨rfl, rfl⟩

/-- The accuracy of a product, for tensors of accuracy `g`, factors of accuracies `gA` and `gB` with at most `p` and `q` rows. -/
noncomputable def productAccuracy (ρ : Rounding) (g gA gB : ℝ) (p q : Nat) : ℝ := g * gA * gB * (1 + ρ.u) ^ (p + q)

theorem jointProductFl_rel (σ : FlSum ρ) {g gA gB : ℝ} (hg : 1 ≤ g) (hgA : 1 ≤ gA) (hgB : 1 ≤ gB) {p q : Nat}
    {A B : Factor (Fl ρ)} {A' A'' B' B'' : Factor ℝ} (hA : FactorWithin gA A A' A'') (hAp : A.dim ≤ p)
    (hB : FactorWithin gB B B' B'') (hBq : B.dim ≤ q) {w b : Tensor (Fl ρ)} {w' w'' b' b'' : Tensor ℝ}
    (hw : TensorWithin g w w' w'') (hb : TensorWithin g b b' b'') (hq : w.shape.headD 0 ≤ q)
    (hp : w.shape.tail.dropLast.prod + 1 ≤ p) :
    Rel3 (fun x y z => TensorWithin (productAccuracy ρ g gA gB p q) x.1 y.1 z.1 ∧
      TensorWithin (productAccuracy ρ g gA gB p q) x.2 y.2 z.2)
      (jointProductFl σ A B w b) (jointProduct A' B' w' b') (jointProduct A'' B'' w'' b'') := by
  unfold jointProductFl jointProduct
  refine (flattenMidFl_rel hw).bind fun x y z ⟨h1, h2, h3⟩ => ?_
  refine (joinBiasFl_rel h1 hb).bind fun x1 y1 z1 ⟨h4, h5, h6⟩ => ?_
  refine (mulLeftFl_rel σ hg hgB hB hBq h4 (by rw [h5, h2]; exact hq)).bind fun x2 y2 z2 ⟨h7, h8⟩ => ?_
  have hu : 1 ≤ gB * g * (1 + ρ.u) ^ q :=
    one_le_mul_of_one_le_of_one_le (one_le_mul_of_one_le_of_one_le hgB hg) (one_le_pow_u q)
  have h9 : x2.shape.getD 1 0 = x1.shape.getD 1 0 := by
    have e : ∀ l : List Nat, l.getD 1 0 = l.tail.headD 0 := by
      intro l
      match l with
      | [] | [_] | _ :: _ :: _ => rfl
    rw [e, e, h8]
  refine (mulRightFl_rel σ hu hgA hA hAp h7 (by rw [h9, h6, h3]; exact hp)).bind fun x3 y3 z3 ⟨h10, _⟩ => ?_
  rw [h1.1, h1.2.1, hw.1, hw.2.1]
  refine (splitBiasFl_rel _ h10).bind fun x4 y4 z4 ⟨h11, h12⟩ => ?_
  have e : gB * g * (1 + ρ.u) ^ q * gA * (1 + ρ.u) ^ p = productAccuracy ρ g gA gB p q := by
    unfold productAccuracy; rw [pow_add]; ring
  rw [e] at h11 h12
  exact (reshape_rel _ h11).bind fun x5 y5 z5 h13 => ⟨h13, h12⟩

theorem weightProductFl_rel (σ : FlSum ρ) {g gA gB : ℝ} (hg : 1 ≤ g) (hgA : 1 ≤ gA) (hgB : 1 ≤ gB) {p q : Nat}
    {A B : Factor (Fl ρ)} {A' A'' B' B'' : Factor ℝ} (hA : FactorWithin gA A A' A'') (hAp : A.dim ≤ p)
    (hB : FactorWithin gB B B' B'') (hBq : B.dim ≤ q) {w : Tensor (Fl ρ)} {w' w'' : Tensor ℝ}
    (hw : TensorWithin g w w' w'') (hq : w.shape.headD 0 ≤ q) (hp : w.shape.tail.dropLast.prod ≤ p) :
    Rel3 (TensorWithin (productAccuracy ρ g gA gB p q))
      (weightProductFl σ A B w) (weightProduct A' B' w') (weightProduct A'' B'' w'') := by
  unfold weightProductFl weightProduct
  refine (flattenMidFl_rel hw).bind fun x y z ⟨h1, h2, h3⟩ => ?_
  refine (mulRightFl_rel σ hg hgA hA hAp h1 (by rw [h3]; exact hp)).bind fun x1 y1 z1 ⟨h4, h5⟩ => ?_
  have hu : 1 ≤ g * gA * (1 + ρ.u) ^ p :=
    one_le_mul_of_one_le_of_one_le (one_le_mul_of_one_le_of_one_le hg hgA) (one_le_pow_u p)
  refine (mulLeftFl_rel σ hu hgB hB hBq h4 (by rw [h5, h2]; exact hq)).bind fun x2 y2 z2 ⟨h7, _⟩ => ?_
  have e : gB * (g * gA * (1 + ρ.u) ^ p) * (1 + ρ.u) ^ q = productAccuracy ρ g gA gB p q := by
    unfold productAccuracy; rw [pow_add]; ring
  rw [e] at h7
  rw [hw.1, hw.2.1]
  exact reshape_rel _ h7

/-- Sizes of a tensor of `M`, and the roundings they cost. -/
def SizesLe (p q : Nat) (t : Tensor (Fl ρ)) : Prop := t.shape.headD 0 ≤ q ∧ t.shape.tail.dropLast.prod + 1 ≤ p

/-- What is known about the dictionaries for a key: entries of accuracies `gA`, `gB` and of at most `p`, `q` rows, or no entries. -/
def FactorsWithin (g : ℝ) (n : Nat) (d : Dict (Factor (Fl ρ))) (d' d'' : Dict (Factor ℝ)) (name : String) : Prop :=
  Rel3 (fun x a A => FactorWithin g x a A ∧ x.dim ≤ n) (d.getE name) (d'.getE name) (d''.getE name)

theorem layerProductFl_rel (σ : FlSum ρ) {g gA gB : ℝ} (hg : 1 ≤ g) (hgA : 1 ≤ gA) (hgB : 1 ≤ gB) {p q : Nat} (sep : Bool)
    {inCov gradCov : Dict (Factor (Fl ρ))} {inCov' inCov'' gradCov' gradCov'' : Dict (Factor ℝ)} (name : String)
    (pos : Dict Nat) (hA : pos.has "weight" = true → FactorsWithin gA p inCov inCov' inCov'' name)
    (hB : FactorsWithin gB q gradCov gradCov' gradCov'' name)
    {M : List (Tensor (Fl ρ))} {M' M'' : List (Tensor ℝ)} (hM : List3 (fun x a A => TensorWithin g x a A ∧ SizesLe p q x) M M' M'') :
    Rel3 (List3 fun x a A => a.1 = x.1 ∧ A.1 = x.1 ∧ TensorWithin (productAccuracy ρ g gA gB p q) x.2 a.2 A.2)
      (layerProductFl σ sep inCov gradCov M name pos) (layerProduct sep inCov' gradCov' M' name pos)
      (layerProduct sep inCov'' gradCov'' M'' name pos) := by
  have hsep : Rel3 (List3 fun x a A => a.1 = x.1 ∧ A.1 = x.1 ∧ TensorWithin (productAccuracy ρ g gA gB p q) x.2 a.2 A.2)
      (layerProductFl σ true inCov gradCov M name pos) (layerProduct true inCov' gradCov' M' name pos)
      (layerProduct true inCov'' gradCov'' M'' name pos) := by
    unfold layerProductFl layerProduct
    refine pyMapM_rel3 _ _ _ _ fun e he => ?_
    refine (listGet_rel3 hM e.2).bind fun m m' m'' ⟨hm, hs⟩ => ?_
    refine hB.bind fun B B' B'' ⟨hB, hBq⟩ => ?_
    split_ifs with hew
    · refine (hA (List.any_eq_true.mpr ⟨e, he, by simp [hew]⟩)).bind fun A A' A'' ⟨hA, hAp⟩ => ?_
      refine (weightProductFl_rel σ hg hgA hgB hA hAp hB hBq hm hs.1 (by have := hs.2; omega)).bind fun x a A h => ?_
      exact ⟨rfl, rfl, h⟩
    · refine (mulLeftFl_rel σ hg hgB hB hBq hm hs.1).bind fun x a A ⟨h, _⟩ => ?_
      refine ⟨rfl, rfl, h.mono ?_⟩
      unfold productAccuracy
      have h1 : gB * g ≤ g * gA * gB := by
        have : 0 ≤ gB * g := mul_nonneg (by linarith) (by linarith)
        nlinarith
      have h2 : (1 + ρ.u) ^ q ≤ (1 + ρ.u) ^ (p + q) := pow_le_pow_right₀ (by linarith [ρ.nonneg]) (by omega)
      exact mul_le_mul h1 h2 (by linarith [one_le_pow_u (ρ := ρ) q])
        (mul_nonneg (mul_nonneg (by linarith) (by linarith)) (by linarith))
  cases sep with
  | true => exact hsep
  | false =>
    cases hw : pos.get "weight" with
    | none => 
      have e1 : layerProductFl σ false inCov gradCov M name pos = layerProductFl σ true inCov gradCov M name pos := by
        unfold layerProductFl; rw [hw]
      have e2 : ∀ (I G : Dict (Factor ℝ)) (M : List (Tensor ℝ)), layerProduct false I G M name pos = layerProduct true I G M name pos := by
        intro I G M; unfold layerProduct; rw [hw]
      rw [e1, e2, e2]; exact hsep
    | some wp =>
      cases hb : pos.get "bias" with
      | none =>
        have e1 : layerProductFl σ false inCov gradCov M name pos = layerProductFl σ true inCov gradCov M name pos := by
          unfold layerProductFl; rw [hw, hb]
        have e2 : ∀ (I G : Dict (Factor ℝ)) (M : List (Tensor ℝ)), layerProduct false I G M name pos = layerProduct true I G M name pos := by
          intro I G M; unfold layerProduct; rw [hw, hb]
        rw [e1, e2, e2]; exact hsep
      | some bp =>
        unfold layerProductFl layerProduct
        rw [hw, hb]
        refine (listGet_rel3 hM wp).bind fun m m' m'' ⟨hm, hs⟩ => ?_
        refine (listGet_rel3 hM bp).bind fun b b' b'' ⟨hb, _⟩ => ?_
        refine (hA ((Dict.has_iff pos "weight").mpr (by rw [hw]; simp))).bind fun A A' A'' ⟨hA, hAp⟩ => ?_
        refine hB.bind fun B B' B'' ⟨hB, hBq⟩ => ?_
        refine (jointProductFl_rel σ hg hgA hgB hA hAp hB hBq hm hb hs.1 hs.2).bind fun x a A h => ?_
        exact ⟨⟨rfl, rfl, h.1⟩, ⟨rfl, rfl, h.2⟩, trivial⟩

/-- **C132** (operation): for tensors of accuracy `g` and factors of accuracies `gA` and `gB` with at most `p` and `q` rows, the
product in floating point has accuracy `g gA gB (1 + u)^(p + q)`, relative to the product of the bounds; the same exceptions are raised
as in exact arithmetic. -/
theorem kfacMatmatFl_rel (σ : FlSum ρ) {g gA gB : ℝ} (hg : 1 ≤ g) (hgA : 1 ≤ gA) (hgB : 1 ≤ gB) {p q : Nat} (sep : Bool)
    (mapping : Dict (Dict Nat)) {inCov gradCov : Dict (Factor (Fl ρ))} {inCov' inCov'' gradCov' gradCov'' : Dict (Factor ℝ)}
    (hA : ∀ e ∈ mapping, e.2.has "weight" = true → FactorsWithin gA p inCov inCov' inCov'' e.1)
    (hB : ∀ e ∈ mapping, FactorsWithin gB q gradCov gradCov' gradCov'' e.1)
    {M : List (Tensor (Fl ρ))} {M' M'' : List (Tensor ℝ)} (hM : List3 (fun x a A => TensorWithin g x a A ∧ SizesLe p q x) M M' M'') :
    Rel3 (List3 (TensorWithin (productAccuracy ρ g gA gB p q)))
      (kfacMatmatFl σ sep mapping inCov gradCov M) (kfacMatmat sep mapping inCov' gradCov' M')
      (kfacMatmat sep mapping inCov'' gradCov'' M'') := by
  unfold kfacMatmatFl kfacMatmat
  refine (pyMapM_rel3 _ _ _ _ fun e he => layerProductFl_rel σ hg hgA hgB sep e.1 e.2 (hA e he) (hB e he) hM).bind
    fun ws ws' ws'' h => ?_
  rw [hM.length.1, hM.length.2]
  exact allSome_rel3 (assignAll_rel3 _ h.flatten)

/-- The numbers in a tensor. -/
def Tensor.val (t : Tensor (Fl ρ)) : Tensor ℝ := ⟨t.shape, t.data.map Fl.val⟩

/-- Their absolute values. -/
def Tensor.absVal (t : Tensor (Fl ρ)) : Tensor ℝ := ⟨t.shape, t.data.map fun x => |x.val|⟩

theorem getD_map_zero {δ ε : Type _} [Zero δ] [Zero ε] (f : δ → ε) (h0 : f 0 = 0) (l : List δ) (i : Nat) :
    (l.map f).getD i 0 = f (l.getD i 0) := by
  by_cases h : i < l.length <;> simp [List.getD_eq_getElem?_getD, h, h0]

theorem tensorWithin_exact (t : Tensor (Fl ρ)) : TensorWithin 1 t t.val t.absVal := by
  refine ⟨rfl, rfl, fun i => ?_, by simp [Tensor.val], by simp [Tensor.absVal]⟩
  unfold Tensor.val Tensor.absVal
  simp only
  rw [getD_map_zero Fl.val rfl, getD_map_zero (fun x : Fl ρ => |x.val|) (by simp)]
  exact ⟨le_rfl, by simp⟩

theorem list3_map {δ ε ζ η : Type _} {R : ε → ζ → η → Prop} (f : δ → ε) (f' : δ → ζ) (f'' : δ → η) (L : List δ)
    (h : ∀ t ∈ L, R (f t) (f' t) (f'' t)) : List3 R (L.map f) (L.map f') (L.map f'') := by
  induction L with
  | nil => simp [List3]
  | cons t L ih => exact ⟨h t (by simp), ih fun t' h' => h t' (by simp [h'])⟩

/-- Related tensor lists have related flattened entries. -/
theorem flatData_within {g : ℝ} : ∀ {Xs : List (Tensor (Fl ρ))} {as As : List (Tensor ℝ)}, List3 (TensorWithin g) Xs as As →
    ∀ i : Nat, Within g ((flatData Xs).getD i 0) ((flatData as).getD i 0) ((flatData As).getD i 0)
  | [], [], [], _, i => by simpa [flatData] using within_zero g
  | x :: xs, a :: as, A :: As, h, i => by
    obtain ⟨⟨-, -, h1, h2, h3⟩, h4⟩ := h
    have e : ∀ {δ : Type} (t : Tensor δ) (ts : List (Tensor δ)), flatData (t :: ts) = t.data ++ flatData ts := fun _ _ => rfl
    rw [e, e, e]
    by_cases hi : i < x.data.length
    · rw [List.getD_append _ _ _ _ hi, List.getD_append _ _ _ _ (by omega), List.getD_append _ _ _ _ (by omega)]
      exact h1 i
    · rw [List.getD_append_right _ _ _ _ (by omega), List.getD_append_right _ _ _ _ (by omega),
        List.getD_append_right _ _ _ _ (by omega), h2, h3]
      exact flatData_within h4 _
  | [], [], _ :: _, h, _ | [], _ :: _, _, h, _ | _ :: _, [], _, h, _ | _ :: _, _ :: _, [], h, _ => by simp [List3] at h

theorem List3.shapes {g : ℝ} : ∀ {Xs : List (Tensor (Fl ρ))} {as As : List (Tensor ℝ)}, List3 (TensorWithin g) Xs as As →
    ∀ {shapes : List (List Nat)} {K : Nat}, HasShapes as shapes K → HasShapes Xs shapes K
  | [], [], [], _, shapes, K, h => ⟨by simpa using h.1, by simp⟩
  | x :: xs, a :: as, A :: As, h, shapes, K, hs => by
    obtain ⟨⟨h1, -, -, h2, -⟩, h4⟩ := h
    obtain ⟨s1, s2⟩ := hs
    match shapes with
    | [] => simp at s1
    | s :: ss =>
      simp only [List.map_cons, List.cons.injEq] at s1
      have ih := List3.shapes h4 (shapes := ss) (K := K) ⟨s1.2, fun t ht => s2 t (by simp [ht])⟩
      refine ⟨?_, fun t ht => ?_⟩
      · simp only [List.map_cons, List.cons.injEq]
        exact ⟨by rw [← h1]; exact s1.1, ih.1⟩
      · rcases List.mem_cons.mp ht with rfl | ht
        · have := s2 a (by simp)
          unfold Tensor.WF at this ⊢
          rw [← h1, ← h2]
          exact this
        · exact ih.2 t ht
  | [], [], _ :: _, h, _, _, _ | [], _ :: _, _, h, _, _, _ | _ :: _, [], _, h, _, _, _ | _ :: _, _ :: _, [], h, _, _, _ => by
    simp [List3] at h

/-- The input factors are within `gA`, the gradient factors within `gB` of the exact ones, relative to bounds, and the product was computed
in floating point: every entry differs from that of the exact product by at most `gA gB (1 + u)^(p + q) - 1` times the entry of the product of
the bounds with the absolute values. -/
theorem kfac_product_rounding_of_factors (σ : FlSum ρ) {gA gB : ℝ} (hgA : 1 ≤ gA) (hgB : 1 ≤ gB) {p q : Nat} (sep : Bool)
    (shapes : List (List Nat)) (hshapes : ∀ s ∈ shapes, s ≠ [] ∧ s.headD 0 ≤ q ∧ s.tail.prod + 1 ≤ p)
    (mapping : Dict (Dict Nat)) {inCov gradCov : Dict (Factor (Fl ρ))} {inCov' inCov'' gradCov' gradCov'' : Dict (Factor ℝ)}
    (hA : ∀ e ∈ mapping, e.2.has "weight" = true → FactorsWithin gA p inCov inCov' inCov'' e.1)
    (hB : ∀ e ∈ mapping, FactorsWithin gB q gradCov gradCov' gradCov'' e.1) {ls ls' : List (Layer ℝ)}
    (hK : KfacLayers sep shapes mapping inCov' gradCov' ls) (hK' : KfacLayers sep shapes mapping inCov'' gradCov'' ls')
    (M M' : Mat ℝ) (hM : IsKron (kfacBlocks sep shapes ls) M) (hM' : IsKron (kfacBlocks sep shapes ls') M')
    (K : Nat) (Xs : List (Tensor (Fl ρ))) (hX : HasShapes Xs shapes K) :
    ∃ Ys, kfacMatmatFl σ sep mapping inCov gradCov Xs = .ok Ys ∧ HasShapes Ys shapes K ∧
      ∀ r < (shapes.map List.prod).sum, ∀ k < K,
        |((flatData Ys).getD (r * K + k) 0).val -
            ∑ c ∈ Finset.range (shapes.map List.prod).sum, M r c * ((flatData Xs).getD (c * K + k) 0).val| ≤
          (gA * gB * (1 + ρ.u) ^ (p + q) - 1) *
            ∑ c ∈ Finset.range (shapes.map List.prod).sum, M' r c * |((flatData Xs).getD (c * K + k) 0).val| := by
  have hX1 : HasShapes (Xs.map Tensor.val) shapes K := by
    refine ⟨by rw [List.map_map]; exact hX.1, fun t ht => ?_⟩
    obtain ⟨t, ht', rfl⟩ := List.mem_map.mp ht
    have := hX.2 t ht'
    simpa [Tensor.WF, Tensor.val] using this
  have hX2 : HasShapes (Xs.map Tensor.absVal) shapes K := by
    refine ⟨by rw [List.map_map]; exact hX.1, fun t ht => ?_⟩
    obtain ⟨t, ht', rfl⟩ := List.mem_map.mp ht
    have := hX.2 t ht'
    simpa [Tensor.WF, Tensor.absVal] using this
  have hXs : List3 (fun x a A => TensorWithin 1 x a A ∧ SizesLe p q x) Xs (Xs.map Tensor.val) (Xs.map Tensor.absVal) := by
    have := list3_map (R := fun x a A => TensorWithin (ρ := ρ) 1 x a A ∧ SizesLe p q x) id Tensor.val Tensor.absVal Xs fun t ht => by
      refine ⟨tensorWithin_exact t, ?_⟩
      have h1 : t.shape ∈ shapes.map (· ++ [K]) := by rw [← hX.1]; exact List.mem_map_of_mem ht
      obtain ⟨s, hs, h2⟩ := List.mem_map.mp h1
      obtain ⟨h3, h4, h5⟩ := hshapes s hs
      unfold SizesLe
      simp only [id]
      rw [← h2]
      match s with
      | [] => exact absurd rfl h3
      | d :: rest => simpa using ⟨h4, h5⟩
    rwa [List.map_id] at this
  have hrel := kfacMatmatFl_rel σ (g := 1) le_rfl hgA hgB sep mapping hA hB hXs
  obtain ⟨Y1, e1, s1, -, v1⟩ := kfac_represents sep shapes mapping inCov' gradCov' ls hK M hM K _ hX1
  obtain ⟨Y2, e2, s2, -, v2⟩ := kfac_represents sep shapes mapping inCov'' gradCov'' ls' hK' M' hM' K _ hX2
  change kfacMatmat sep mapping inCov' gradCov' _ = .ok Y1 at e1
  change kfacMatmat sep mapping inCov'' gradCov'' _ = .ok Y2 at e2
  rw [e1, e2] at hrel
  cases e3 : kfacMatmatFl σ sep mapping inCov gradCov Xs with
  | error e => rw [e3] at hrel; exact hrel.elim
  | ok Ys =>
    rw [e3] at hrel
    have hrel : List3 (TensorWithin (productAccuracy ρ 1 gA gB p q)) Ys Y1 Y2 := hrel
    refine ⟨Ys, rfl, hrel.shapes s1, fun r hr k hk => ?_⟩
    have h := (flatData_within hrel (r * K + k)).2
    have v1 := v1 r hr k hk
    have v2 := v2 r hr k hk
    rw [v1, v2] at h
    have f1 : ∀ i, (flatData (Xs.map Tensor.val)).getD i 0 = ((flatData Xs).getD i 0).val := fun i => by
      have : flatData (Xs.map Tensor.val) = (flatData Xs).map Fl.val := by
        unfold flatData; rw [List.map_flatten, List.map_map, List.map_map]; rfl
      rw [this, getD_map_zero Fl.val rfl]
    have f2 : ∀ i, (flatData (Xs.map Tensor.absVal)).getD i 0 = |((flatData Xs).getD i 0).val| := fun i => by
      have : flatData (Xs.map Tensor.absVal) = (flatData Xs).map fun x => |x.val| := by
        unfold flatData; rw [List.map_flatten, List.map_map, List.map_map]; rfl
      rw [this, getD_map_zero (fun x : Fl ρ => |x.val|) (by simp)]
    simp only [f1, f2] at h
    unfold productAccuracy at h
    rw [one_mul] at h
    exact h

/-- The layer with the factors of the bounds. -/
noncomputable def PLayer.boundLayer (cfg : KfacCfg) (data : List (Computed ρ)) (l : PLayer) : Layer ℝ :=
  ⟨l.name, l.pos, ⟨l.din + (if l.klayer.joint cfg then 1 else 0), specInputFactor cfg l.klayer (data.map Computed.bound)⟩,
    ⟨l.dout, if cfg.fisher = .forwardOnly then fun i j => if i = j then 1 else 0 else boundGradFactor cfg l.klayer data⟩⟩

theorem lookup_layers {δ : Type _} (f : PLayer → δ) (layers : List PLayer) (hnd : (layers.map PLayer.name).Nodup) (l : PLayer)
    (hl : l ∈ layers) : Dict.get (layers.map fun l => (l.name, f l)) l.name = some (f l) := by
  unfold Dict.get
  induction layers with
  | nil => simp at hl
  | cons m ms ih =>
    rw [List.map_cons, List.nodup_cons] at hnd
    rw [List.map_cons, List.lookup_cons]
    rcases List.mem_cons.mp hl with rfl | hl
    · simp
    · have hne : (l.name == m.name) = false := by
        simp only [beq_eq_false_iff_ne, ne_eq]
        exact fun e => hnd.1 (List.mem_map.mpr ⟨l, hl, e⟩)
      simp only [hne]
      exact ih hnd.2 hl

theorem bound_kfacLayers {cfg : KfacCfg} {shapes : List (List Nat)} {layers : List PLayer} (hnet : PNet shapes layers)
    (data : List (Computed ρ)) :
    KfacLayers cfg.sep shapes (pMapping layers) (layers.map fun l => (l.name, (l.boundLayer cfg data).A))
      (layers.map fun l => (l.name, (l.boundLayer cfg data).B)) (layers.map (PLayer.boundLayer cfg data)) := by
  refine ⟨?_, ?_, ?_, ?_, ?_⟩
  · unfold pMapping
    rw [List.map_map]
    rfl
  · rw [List.flatMap_map]
    exact hnet.perm
  · intro l hl _
    obtain ⟨l', hl', rfl⟩ := List.mem_map.mp hl
    exact lookup_layers (fun l => (l.boundLayer cfg data).A) layers hnet.names l' hl'
  · intro l hl
    obtain ⟨l', hl', rfl⟩ := List.mem_map.mp hl
    exact lookup_layers (fun l => (l.boundLayer cfg data).B) layers hnet.names l' hl'
  · intro l hl
    obtain ⟨l', hl', rfl⟩ := List.mem_map.mp hl
    have hf := hnet.fits l' hl'
    unfold PLayer.Fits at hf
    unfold Layer.Fits
    cases hp : l'.pos with
    | both w b =>
      rw [hp] at hf
      simp only [PLayer.boundLayer, PLayer.klayer, KLayer.joint, hp]
      refine ⟨hf.2.1, hf.2.2.2, ?_⟩
      rw [hf.2.2.1]
      cases cfg.sep <;> simp [LayerPos.dict, Dict.has]
    | weight w =>
      rw [hp] at hf
      simp only [PLayer.boundLayer, PLayer.klayer, KLayer.joint, hp]
      refine ⟨hf.2.1, ?_⟩
      rw [hf.2.2]
      simp [LayerPos.dict, Dict.has]
    | bias b =>
      rw [hp] at hf
      simp only [PLayer.boundLayer, hp]
      exact hf.2

/-- A run of KFAC in floating point: the parameters' shapes and layers, what the hooks see (accuracy `η`), sizes of the factors (`p`, `q`), of
mini-batches (`B`), and bounds `eA` and `eG` on the errors of the factors (C131). Numbers of positions and data are representable. -/
structure RoundedRun (π : Rounding) (η : ℝ) (cfg : KfacCfg) (shapes : List (List Nat)) (layers : List PLayer)
    (batches : List (List (Computed ρ))) (B p q : Nat) (eA eG : ℝ) : Prop where
  net : PNet shapes layers
  nonneg : 0 ≤ η ∧ 0 ≤ eA ∧ 0 ≤ eG
  shapes : ∀ s ∈ shapes, s ≠ [] ∧ s.headD 0 ≤ q ∧ s.tail.prod + 1 ≤ p
  dims : ∀ l ∈ layers, l.din + 1 ≤ p ∧ l.dout ≤ q
  batches_ne : batches ≠ []
  batch : ∀ b ∈ batches, b ≠ [] ∧ b.length ≤ B
  pos : cfg.N ≠ 0 ∧ cfg.T ≠ 0 ∧ cfg.C ≠ 0 ∧ cfg.mcSamples ≠ 0
  numbers : ∀ l ∈ layers, l.S ≠ 0 ∧ ρ.rnd l.S = l.S ∧
    ρ.rnd (cfg.N * rowCount cfg l.klayer : Nat) = (cfg.N * rowCount cfg l.klayer : Nat)
  inputs : ∀ l ∈ layers, l.pos.hasWeight = true → InputsWithin η l.klayer batches
  grads : cfg.fisher ≠ .forwardOnly → ∀ l ∈ layers, GradsWithin η cfg l.klayer batches
  inputError : ∀ l ∈ layers, l.pos.hasWeight = true → inputAccuracy ρ η cfg l.klayer B batches.length ≤ eA
  gradError : cfg.fisher ≠ .forwardOnly → ∀ l ∈ layers, gradAccuracy ρ π η cfg l.klayer B batches.length ≤ eG

/-- **C132**: products with KFAC in floating point, from the numbers that the hooks see to the entries of the result. `M` is KFAC's matrix in
exact arithmetic, and `M'` that of the factors of the bounds. -/
theorem kfac_product_rounding (π : Rounding) (σ σ' : FlSum ρ) {η : ℝ} (cfg : KfacCfg) (shapes : List (List Nat))
    (layers : List PLayer) (batches : List (List (Computed ρ))) {B p q : Nat} {eA eG : ℝ}
    (hrun : RoundedRun π η cfg shapes layers batches B p q eA eG)
    (M M' : Mat ℝ) (hM : IsKron (kfacBlocks cfg.sep shapes (layers.map (PLayer.layer cfg (batches.flatten.map Computed.exact)))) M)
    (hM' : IsKron (kfacBlocks cfg.sep shapes (layers.map (PLayer.boundLayer cfg batches.flatten))) M')
    (K : Nat) (Xs : List (Tensor (Fl ρ))) (hX : HasShapes Xs shapes K) :
    ∃ Ys, kfacMatmatFl σ' cfg.sep (pMapping layers)
        (kfacFactorsFl π σ cfg (layers.map PLayer.klayer) (batches.map fun b => b.map Computed.fl)).1
        (kfacFactorsFl π σ cfg (layers.map PLayer.klayer) (batches.map fun b => b.map Computed.fl)).2 Xs = .ok Ys ∧
      HasShapes Ys shapes K ∧ ∀ r < (shapes.map List.prod).sum, ∀ k < K,
        |((flatData Ys).getD (r * K + k) 0).val -
            ∑ c ∈ Finset.range (shapes.map List.prod).sum, M r c * ((flatData Xs).getD (c * K + k) 0).val| ≤
          ((1 + eA) * (1 + eG) * (1 + ρ.u) ^ (p + q) - 1) *
            ∑ c ∈ Finset.range (shapes.map List.prod).sum, M' r c * |((flatData Xs).getD (c * K + k) 0).val| := by
  obtain ⟨hnet, ⟨hη, heA0, heG0⟩, hshapes, hdims, hne, hB, ⟨hN, hT, hC, hmc⟩, hnum, hx, hg, heA, heG⟩ := hrun
  have hl : ∀ l ∈ layers, l.din + 1 ≤ p ∧ l.dout ≤ q ∧ l.S ≠ 0 ∧ ρ.rnd l.S = l.S ∧
      ρ.rnd (cfg.N * rowCount cfg l.klayer : Nat) = (cfg.N * rowCount cfg l.klayer : Nat) :=
    fun l h => ⟨(hdims l h).1, (hdims l h).2, hnum l h⟩
  have hnames : ((layers.map PLayer.klayer).map KLayer.name).Nodup := by
    rw [List.map_map]
    exact hnet.names
  have hne' : (batches.map fun b => b.map Computed.exact) ≠ [] := by simpa using hne
  have hflat : (batches.map fun b => b.map Computed.exact).flatten = batches.flatten.map Computed.exact := by
    rw [List.map_flatten]
  have hK := pnet_kfacLayers (cfg := cfg) hnet _ hne' hT hC hmc
  rw [hflat] at hK
  refine kfac_product_rounding_of_factors σ' (by linarith) (by linarith) cfg.sep shapes hshapes (pMapping layers) ?_ ?_ hK
    (bound_kfacLayers hnet batches.flatten) M M' hM hM' K Xs hX
  · intro e he hw
    obtain ⟨l, hll, rfl⟩ := List.mem_map.mp he
    obtain ⟨l1, l2, l3, l4, l5⟩ := hl l hll
    have hw' : l.pos.hasWeight = true := by rw [← Dict.has_dict_weight]; exact hw
    obtain ⟨F, f1, f2, f3⟩ := kfac_input_rounding_within π σ hη cfg _ hnames batches hne hB l.klayer (List.mem_map_of_mem hll) hw hN l3
      l4 l5 (hx l hll hw')
    have f4 := kfac_input_factor cfg _ hnames _ hne' l.klayer (List.mem_map_of_mem hll) hw
    have f5 := lookup_layers (fun l => (l.boundLayer cfg batches.flatten).A) layers hnet.names l hll
    change Dict.get _ l.name = _ at f1 f4
    rw [hflat] at f4
    unfold FactorsWithin Dict.getE
    simp only [f1, f4, f5]
    refine ⟨⟨f2.symm, f2.symm, fun i hi j hj => (f3 i hi j hj).mono (by linarith [heA l hll hw'])⟩, ?_⟩
    rw [f2]
    have : l.klayer.din = l.din := rfl
    split_ifs <;> omega
  · intro e he
    obtain ⟨l, hll, rfl⟩ := List.mem_map.mp he
    obtain ⟨l1, l2, l3, l4, l5⟩ := hl l hll
    have f4 := kfac_grad_factor cfg _ hnames _ hne' hT hC hmc l.klayer (List.mem_map_of_mem hll)
    have f5 := lookup_layers (fun l => (l.boundLayer cfg batches.flatten).B) layers hnet.names l hll
    rw [hflat] at f4
    by_cases hf : cfg.fisher = .forwardOnly
    · obtain ⟨F, f1, f2, f3⟩ := kfac_rounding_forward_only π σ cfg hf _ hnames (batches.map fun b => b.map Computed.fl) (by simpa using hne)
        l.klayer (List.mem_map_of_mem hll)
      change Dict.get _ l.name = _ at f1 f4
      unfold FactorsWithin Dict.getE
      simp only [f1, f4, f5]
      refine ⟨⟨f2.symm, f2.symm, fun i hi j hj => ?_⟩, by rw [f2]; exact l2⟩
      have e1 : specGradFactor cfg l.klayer (batches.flatten.map Computed.exact) i j = if i = j then 1 else 0 := by
        unfold specGradFactor
        simp [hf]
      have e2 : (l.boundLayer cfg batches.flatten).B.mat i j = if i = j then 1 else 0 := by
        simp [PLayer.boundLayer, hf]
      dsimp only
      rw [e1, e2]
      refine ⟨by split_ifs <;> simp, ?_⟩
      rw [f3]
      simp only [sub_self, abs_zero]
      split_ifs <;> linarith
    · obtain ⟨F, f1, f2, f3⟩ := kfac_grad_rounding_within π σ hη cfg hf _ hnames batches hne hB l.klayer (List.mem_map_of_mem hll) hT hC hmc
        l3 (hg hf l hll)
      change Dict.get _ l.name = _ at f1 f4
      unfold FactorsWithin Dict.getE
      simp only [f1, f4, f5]
      refine ⟨⟨f2.symm, f2.symm, fun i hi j hj => ?_⟩, by rw [f2]; exact l2⟩
      have e2 : (l.boundLayer cfg batches.flatten).B.mat = boundGradFactor cfg l.klayer batches.flatten := by
        simp [PLayer.boundLayer, hf]
      rw [e2]
      exact (f3 i hi j hj).mono (by linarith [heG hf l hll])

theorem sum_mul_le {n : Nat} (x a b : Nat → ℝ) (h : ∀ r < n, |a r| ≤ b r) :
    |∑ r ∈ Finset.range n, x r * a r| ≤ ∑ r ∈ Finset.range n, |x r| * b r :=
  (Finset.abs_sum_le_sum_abs _ _).trans (Finset.sum_le_sum fun r hr => by
    rw [abs_mul]
    exact mul_le_mul_of_nonneg_left (h r (Finset.mem_range.mp hr)) (abs_nonneg _))

/-- **C132** (symmetry and positivity up to rounding): for the columns `x`, `y` of the argument and the computed columns `Kx`, `Ky` of the result,
`yᵀ Kx` and `xᵀ Ky` differ by at most the error times `|y|ᵀ M' |x| + |x|ᵀ M' |y|`, and `xᵀ Kx` is at least minus the error times
`|x|ᵀ M' |x|`. -/
theorem kfac_product_rounding_symmetric (π : Rounding) (σ σ' : FlSum ρ) {η : ℝ} (cfg : KfacCfg) (shapes : List (List Nat))
    (layers : List PLayer) (batches : List (List (Computed ρ))) {B p q : Nat} {eA eG : ℝ}
    (hrun : RoundedRun π η cfg shapes layers batches B p q eA eG)
    (M M' : Mat ℝ) (hM : IsKron (kfacBlocks cfg.sep shapes (layers.map (PLayer.layer cfg (batches.flatten.map Computed.exact)))) M)
    (hM' : IsKron (kfacBlocks cfg.sep shapes (layers.map (PLayer.boundLayer cfg batches.flatten))) M')
    (K : Nat) (Xs : List (Tensor (Fl ρ))) (hX : HasShapes Xs shapes K) (Ys : List (Tensor (Fl ρ)))
    (hY : kfacMatmatFl σ' cfg.sep (pMapping layers)
        (kfacFactorsFl π σ cfg (layers.map PLayer.klayer) (batches.map fun b => b.map Computed.fl)).1
        (kfacFactorsFl π σ cfg (layers.map PLayer.klayer) (batches.map fun b => b.map Computed.fl)).2 Xs = .ok Ys)
    (k k' : Nat) (hk : k < K) (hk' : k' < K) :
    let n := (shapes.map List.prod).sum
    let e := (1 + eA) * (1 + eG) * (1 + ρ.u) ^ (p + q) - 1
    let x := fun r => ((flatData Xs).getD (r * K + k) 0).val
    let y := fun r => ((flatData Xs).getD (r * K + k') 0).val
    let Kx := fun r => ((flatData Ys).getD (r * K + k) 0).val
    let Ky := fun r => ((flatData Ys).getD (r * K + k') 0).val
    |∑ r ∈ Finset.range n, y r * Kx r - ∑ r ∈ Finset.range n, x r * Ky r| ≤
        e * (∑ r ∈ Finset.range n, ∑ c ∈ Finset.range n, |y r| * M' r c * |x c| +
          ∑ r ∈ Finset.range n, ∑ c ∈ Finset.range n, |x r| * M' r c * |y c|) ∧
      -(e * ∑ r ∈ Finset.range n, ∑ c ∈ Finset.range n, |x r| * M' r c * |x c|) ≤ ∑ r ∈ Finset.range n, x r * Kx r := by
  intro n e x y Kx Ky
  obtain ⟨Zs, hZ, -, hb⟩ := kfac_product_rounding π σ σ' cfg shapes layers batches hrun M M' hM hM' K Xs hX
  obtain rfl : Zs = Ys := by rw [hZ] at hY; exact Except.ok.inj hY
  have hne' : (batches.map fun b => b.map Computed.exact) ≠ [] := by simpa using hrun.batches_ne
  have hflat : (batches.map fun b => b.map Computed.exact).flatten = batches.flatten.map Computed.exact := by
    rw [List.map_flatten]
  have hK := pnet_kfacLayers (cfg := cfg) hrun.net _ hne' hrun.pos.2.1 hrun.pos.2.2.1 hrun.pos.2.2.2
  obtain ⟨hsym, hpsd⟩ := kfac_psd cfg _ _ shapes _ _ hK M (by rw [hflat]; exact hM)
  have err : ∀ (a b Kb : Nat → ℝ), (∀ r < n, |Kb r - ∑ c ∈ Finset.range n, M r c * b c| ≤ e * ∑ c ∈ Finset.range n, M' r c * |b c|) →
      |∑ r ∈ Finset.range n, a r * Kb r - ∑ r ∈ Finset.range n, ∑ c ∈ Finset.range n, a r * M r c * b c| ≤
        e * ∑ r ∈ Finset.range n, ∑ c ∈ Finset.range n, |a r| * M' r c * |b c| := by
    intro a b Kb h
    have h1 := sum_mul_le a _ _ h
    have h2 : ∑ r ∈ Finset.range n, a r * (Kb r - ∑ c ∈ Finset.range n, M r c * b c) =
        ∑ r ∈ Finset.range n, a r * Kb r - ∑ r ∈ Finset.range n, ∑ c ∈ Finset.range n, a r * M r c * b c := by
      rw [← Finset.sum_sub_distrib]
      refine Finset.sum_congr rfl fun r _ => ?_
      rw [mul_sub, Finset.mul_sum]
      simp only [mul_assoc]
    have h3 : ∑ r ∈ Finset.range n, |a r| * (e * ∑ c ∈ Finset.range n, M' r c * |b c|) =
        e * ∑ r ∈ Finset.range n, ∑ c ∈ Finset.range n, |a r| * M' r c * |b c| := by
      rw [Finset.mul_sum]
      refine Finset.sum_congr rfl fun r _ => ?_
      rw [mul_left_comm, Finset.mul_sum]
      simp only [mul_assoc]
    rwa [h2, h3] at h1
  have h1 := err y x Kx fun r hr => hb r hr k hk
  have h2 := err x y Ky fun r hr => hb r hr k' hk'
  have h3 := err x x Kx fun r hr => hb r hr k hk
  have h4 : ∑ r ∈ Finset.range n, ∑ c ∈ Finset.range n, y r * M r c * x c =
      ∑ r ∈ Finset.range n, ∑ c ∈ Finset.range n, x r * M r c * y c := by
    rw [Finset.sum_comm]
    refine Finset.sum_congr rfl fun r hr => Finset.sum_congr rfl fun c hc => ?_
    rw [hsym c (Finset.mem_range.mp hc) r (Finset.mem_range.mp hr)]
    ring
  constructor
  · rw [h4] at h1
    rw [mul_add]
    have := abs_le.mp h1
    have := abs_le.mp h2
    exact abs_le.mpr ⟨by linarith, by linarith⟩
  · have h5 : 0 ≤ ∑ r ∈ Finset.range n, ∑ c ∈ Finset.range n, x r * M r c * x c := hpsd x
    have := abs_le.mp h3
    linarith

end tensors

/-- A linear layer with weight, bias, and two positions. -/
def roundPLayer : PLayer := ⟨"l", .both 0 1, 2, 3, 2⟩

/-- Non-vacuity: `float32`, three data in two mini-batches, weight and bias are treated jointly; factors with 3 rows cost 6 roundings per
entry. -/
theorem roundPLayer_run (d₁ d₂ d₃ : FlDatum (binaryFloat 23)) :
    RoundedRun (binaryFloat 52) 0 roundCfg' [[3, 2], [3]] [roundPLayer] ([[d₁, d₂], [d₃]].map fun b => b.map takenExact) 2 3 3
      (inputAccuracy (binaryFloat 23) 0 roundCfg' roundLayer' 2 2)
      (gradAccuracy (binaryFloat 23) (binaryFloat 52) 0 roundCfg' roundLayer' 2 2) where
  net := ⟨by simp [roundPLayer, PLayer.Fits, wCols], by simp, by simp [roundPLayer, LayerPos.positions, List.range_succ]⟩
  nonneg := by
    have h1 := one_le_pow_u (ρ := binaryFloat 23)
    have h2 : 1 ≤ 1 + (binaryFloat 52).u := by linarith [(binaryFloat 52).nonneg]
    refine ⟨le_rfl, ?_, ?_⟩
    · unfold inputAccuracy
      have := h1 (2 * inputRowRoundings roundCfg' roundLayer' + 2 * rowCount roundCfg' roundLayer' + 2)
      simpa using this
    · unfold gradAccuracy
      have := one_le_mul_of_one_le_of_one_le h2
        (h1 (2 * gradRowRoundings roundCfg' roundLayer' + 2 * rowCount roundCfg' roundLayer' + 1 + 2 * numPasses roundCfg'))
      simpa using this
  shapes := by simp
  dims := by simp [roundPLayer]
  batches_ne := by simp
  batch := by simp
  pos := by simp [roundCfg']
  numbers := by
    intro l hl
    obtain rfl : l = roundPLayer := by simpa using hl
    exact ⟨by decide, binary_natCast 23 2 (by norm_num), binary_natCast 23 3 (by norm_num)⟩
  inputs := by
    intro l hl _
    exact takenExact_inputs _ _
  grads := by
    intro _ l hl
    obtain rfl : l = roundPLayer := by simpa using hl
    exact takenExact_grads _
  inputError := by
    intro l hl _
    obtain rfl : l = roundPLayer := by simpa using hl
    exact le_rfl
  gradError := by
    intro _ l hl
    obtain rfl : l = roundPLayer := by simpa using hl
    exact le_rfl

example (σ σ' : FlSum (binaryFloat 23)) (d₁ d₂ d₃ : FlDatum (binaryFloat 23)) (M M' : Mat ℝ) hM hM' (w : Fin 6 → Fl (binaryFloat 23))
    (b : Fin 3 → Fl (binaryFloat 23)) :=
  kfac_product_rounding (binaryFloat 52) σ σ' roundCfg' _ _ _ (roundPLayer_run d₁ d₂ d₃) M M' hM hM' 1
    [⟨[3, 2, 1], List.ofFn w⟩, ⟨[3, 1], List.ofFn b⟩] (by simp [HasShapes, Tensor.WF])

end Curvlinops
