import Verif.Lemmas.Tensor
import Mathlib.Algebra.Order.Ring.Nat
import Mathlib.Data.List.Basic
import Mathlib.Tactic.NormNum

/-!
# C02 – C06: the multiplication interface `A @ X`
-/

namespace Curvlinops

variable {α : Type _}

/-- Pre-processing of an accepted input hands a matrix in tensor list format with the same entries to
`_matmat`. The format is unique except that the empty tensor list is read as a vector. -/
theorem pre_of_inSpace (op : LinOp α) (X : PyVal α) (f : Fmt) (hX : X.WF)
    (h : InSpace op.inShape f X) (hne : op.inShape ≠ [] ∨ f = .vec ∨ ∃ t, X = .tensor t) :
    ∃ Xs, op.pre X = .ok (Xs, (match X with | .list _ => true | _ => false),
        (match f with | .vec => true | _ => false), f.cols) ∧
      HasShapes Xs op.inShape f.cols ∧ flatData Xs = X.entries := by
  rcases X with t | ts | _
  · obtain ⟨Xs, h1, h2, h3⟩ := preTensor_spec op t f.dims f.cols h
      (by cases f <;> simp [Fmt.dims, Fmt.cols]) hX
    refine ⟨Xs, ?_, h2, h3⟩
    simp only [LinOp.pre, h1]
    cases f <;> simp [Fmt.dims, Fmt.cols]
  · cases f with
    | vec =>
      have h' : ts.map (·.shape) = op.inShape := by simpa [InSpace, Fmt.dims] using h
      refine ⟨ts.map Tensor.unsqueezeLast, ?_, hasShapes_unsqueeze h' hX, flatData_unsqueeze ts⟩
      simp only [LinOp.pre, preList_vec op ts h', Fmt.cols]
    | mat K =>
      have hne' : op.inShape ≠ [] := by
        rcases hne with h | h | ⟨t, h⟩
        · exact h
        · cases h
        · cases h
      refine ⟨ts, ?_, ⟨h, hX⟩, rfl⟩
      simp only [LinOp.pre, preList_mat op ts K hne' h, Fmt.cols]
  · exact h.elim

/-- The value a rejected input raises: `IndexError` for zero-dimensional tensors, `ValueError` otherwise. -/
def rejection : PyVal α → PyErr
  | .tensor t => if t.shape = [] then .indexError else .valueError
  | _ => .valueError

theorem pre_of_not_accepted (op : LinOp α) (X : PyVal α) (h : ¬ Accepted op X) :
    op.pre X = .error (rejection X) := by
  rcases X with t | ts | _
  · have h1 : t.shape ≠ [op.ncols] := fun e => h ⟨.vec, e⟩
    have h2 : ∀ K, t.shape ≠ [op.ncols, K] := fun K e => h ⟨.mat K, e⟩
    simp only [LinOp.pre, LinOp.preTensor]
    rcases hs : t.shape with _ | ⟨d, rest⟩
    · simp [Tensor.ndim, hs, rejection]
    · by_cases hnd : t.ndim > 2
      · simp [hnd, rejection, hs]
      · rw [if_neg hnd]
        have : d ≠ op.ncols := by
          rintro rfl
          rw [Tensor.ndim, hs] at hnd
          rcases rest with _ | ⟨K, _ | ⟨_, _⟩⟩
          · exact h1 hs
          · exact h2 K hs
          · simp at hnd
        simp [this, rejection, hs]
  · simp only [LinOp.pre, rejection]
    have h1 : ts.map (·.shape) ≠ op.inShape := fun e =>
      h ⟨.vec, by simpa [InSpace, Fmt.dims] using e⟩
    have h2 : ∀ K, ts.map (·.shape) ≠ op.inShape.map (· ++ [K]) := fun K e => h ⟨.mat K, e⟩
    unfold LinOp.preList
    by_cases hl : ts.length = op.inShape.length
    · rw [if_neg (by simpa using hl), if_neg]
      · by_cases hm : (ts.zip op.inShape).all
          (fun p => p.1.ndim == p.2.length + 1 && p.1.shape.dropLast == p.2) = true
        · rw [if_pos hm]
          have hm' := (matCond_iff ts _ hl).mp hm
          obtain ⟨ks, hk1, hk2⟩ := hm'
          rcases hd : (ts.map fun x => x.shape.getLastD 0).dedup with _ | ⟨k, _ | ⟨_, _⟩⟩
          · simp only [hd]
          · exfalso
            have hall := of_dedup_singleton hd
            apply h2 k
            rw [hk1]
            have hks : ∀ a ∈ ks, a = k := by
              intro a ha
              apply hall
              have : (ts.map fun x => x.shape.getLastD 0) = ks := by
                have e : (ts.map fun x => x.shape.getLastD 0) =
                    (ts.map (·.shape)).map (fun s => s.getLastD 0) := by
                  rw [List.map_map]; rfl
                rw [e, hk1]
                clear * - hk2
                generalize op.inShape = l at hk2 ⊢
                induction l generalizing ks with
                | nil => simp at hk2; simp [hk2]
                | cons s l ih =>
                  rcases ks with _ | ⟨k, ks⟩
                  · simp at hk2
                  · simp only [List.zipWith_cons_cons, List.map_cons]
                    rw [ih ks (by simpa using hk2)]; simp
              rw [this]; exact ha
            have : ks = List.replicate op.inShape.length k := by
              rw [← hk2]; exact List.eq_replicate_of_mem hks
            rw [this]
            clear * -
            induction op.inShape with
            | nil => simp
            | cons s ss ih => simp [List.replicate_succ, ih]
          · simp only [hd]
        · rw [if_neg hm]
      · intro hv
        exact h1 ((all_zip_eq (fun t : Tensor α => t.shape) ts _ hl).mp hv)
    · rw [if_pos hl]
  · rfl

/-- C02: on a documented input `@` calls `_matmat` with the input as a matrix in tensor list format: the
same entries in the same order, in the input shapes with the trailing column dimension. -/
theorem matmul_accepts (op : LinOp α) (X : PyVal α) (hX : X.WF) (h : Accepted op X) :
    ∃ K Xs lf iv, op.pre X = .ok (Xs, lf, iv, K) ∧ HasShapes Xs op.inShape K ∧
      flatData Xs = X.entries := by
  obtain ⟨f, hf⟩ := h
  by_cases hc : op.inShape ≠ [] ∨ f = .vec ∨ ∃ t, X = .tensor t
  · obtain ⟨Xs, h1, h2, h3⟩ := pre_of_inSpace op X f hX hf hc
    exact ⟨_, Xs, _, _, h1, h2, h3⟩
  · push Not at hc
    have hf' : InSpace op.inShape .vec X := by
      rcases X with t | ts | _
      · exact absurd rfl (hc.2.2 t)
      · simp only [InSpace, hc.1, List.map_nil] at hf ⊢; exact hf
      · exact hf.elim
    obtain ⟨Xs, h1, h2, h3⟩ := pre_of_inSpace op X .vec hX hf' (Or.inr (Or.inl rfl))
    exact ⟨_, Xs, _, _, h1, h2, h3⟩

/-- C02: any other input is rejected without calling `_matmat`: `IndexError` for a zero-dimensional
tensor, `ValueError` for everything else; the argument is left as it was. -/
theorem matmul_rejects (op : LinOp α) (X : PyVal α) (h : ¬ Accepted op X) :
    op.matmul X = (.error (rejection X), X) := by
  unfold LinOp.matmul
  rw [pre_of_not_accepted op X h]

/-- C02: `_matmat` is reached exactly on the documented inputs: an exception that `_matmat` always raises
reaches the caller exactly then. -/
theorem matmul_reaches_iff (op : LinOp α) (X : PyVal α) (hX : X.WF)
    (hop : ∀ Xs, (op.matmat Xs).1 = .error .linAlgError) :
    (op.matmul X).1 = .error .linAlgError ↔ Accepted op X := by
  constructor
  · intro h
    by_contra hn
    rw [matmul_rejects op X hn] at h
    rcases X with t | ts | _
    · simp only [rejection] at h
      split at h <;> cases h
    · cases h
    · cases h
  · intro h
    obtain ⟨K, Xs, lf, iv, h1, _, _⟩ := matmul_accepts op X hX h
    unfold LinOp.matmul
    simp only [h1, hop Xs]

/-! ## C05: malformed products are never returned -/

/-- C05: whatever `_matmat` does, a returned product has exactly the output shapes, in the format of `X`. -/
theorem matmul_output_shape (op : LinOp α) (X Y : PyVal α) (f : Fmt) (hX : X.WF)
    (hf : InSpace op.inShape f X) (hne : op.inShape ≠ [] ∨ f = .vec ∨ ∃ t, X = .tensor t)
    (h : (op.matmul X).1 = .ok Y) :
    SameKind X Y ∧ InSpace op.outShape f Y := by
  obtain ⟨Xs, h1, h2, h3⟩ := pre_of_inSpace op X f hX hf hne
  unfold LinOp.matmul at h
  simp only [h1] at h
  rcases hm : (op.matmat Xs).1 with e | AX
  · simp [hm] at h
  simp only [hm] at h
  have hshape : AX.map (·.shape) = op.outShape.map (· ++ [f.cols]) := by
    unfold LinOp.post at h
    split at h
    · cases h
    rename_i hl
    split at h
    · cases h
    rename_i hs
    have hl' : AX.length = op.outShape.length := by simpa using hl
    apply List.ext_getElem
    · simpa using hl'
    · intro i hi1 hi2
      simp only [List.getElem_map]
      by_contra hc
      apply hs
      rw [List.any_eq_true]
      refine ⟨(AX[i]'(by simpa using hi1), op.outShape[i]'(by simpa using hi2)), ?_, by simpa using hc⟩
      rw [List.mem_iff_getElem]
      exact ⟨i, by simp at hi1 hi2 ⊢; omega, by simp⟩
  -- use a well-formed copy of the output: shapes decide everything
  unfold LinOp.post at h
  split at h
  · cases h
  split at h
  · cases h
  rcases X with t | ts | _
  · simp only [Bool.false_eq_true, if_false] at h
    split at h
    · cases h
    rename_i parts hparts
    split at h
    · cases h
    rename_i t' hcat
    cases h
    refine ⟨trivial, ?_⟩
    have hpm : ∀ (l : List (Tensor α × Nat)) (ps : List (Tensor α)),
        pyMapM (fun p : Tensor α × Nat => p.1.reshape [p.2, f.cols]) l = .ok ps →
          ps.map (·.shape) = l.map (fun p => [p.2, f.cols]) := by
      intro l
      induction l with
      | nil => intro ps hp; simp only [pyMapM] at hp; cases hp; rfl
      | cons a l ih =>
        intro ps hp
        simp only [pyMapM] at hp
        split at hp
        · cases hp
        rename_i b hb
        split at hp
        · cases hp
        rename_i bs hbs
        cases hp
        simp only [List.map_cons, ih bs hbs, List.cons.injEq, and_true]
        unfold Tensor.reshape at hb
        split at hb
        · cases hb; rfl
        · cases hb
    have hps := hpm _ _ hparts
    have hlen : AX.length = op.outFlat.length := by
      have := congrArg List.length hshape
      simpa [LinOp.outFlat] using this
    have hps' : parts.map (·.shape) = op.outFlat.map (fun n => [n, f.cols]) := by
      rw [hps]
      have : (AX.zip op.outFlat).map Prod.snd = op.outFlat := by
        rw [List.map_snd_zip]; omega
      conv_rhs => rw [← this, List.map_map]
      rfl
    unfold Tensor.cat0 at hcat
    rcases parts with _ | ⟨u, us⟩
    · cases hcat
    simp only at hcat
    split at hcat
    · cases hcat
    rename_i d rest hu
    split at hcat
    swap
    · cases hcat
    cases hcat
    obtain ⟨n, hu'⟩ : ∃ n, u.shape = [n, f.cols] := by
      rcases ho : op.outFlat with _ | ⟨n, ns⟩
      · rw [ho] at hps'; simp at hps'
      · rw [ho] at hps'; simp only [List.map_cons, List.cons.injEq] at hps'; exact ⟨n, hps'.1⟩
    have hrest : rest = [f.cols] := by rw [hu'] at hu; simp at hu; exact hu.2.symm
    have hsum : (((u :: us).map fun u => u.shape.headD 0)).sum = op.nrows := by
      have e : (u :: us).map (fun u => u.shape.headD 0) = ((u :: us).map (·.shape)).map (fun s => s.headD 0) := by
        rw [List.map_map]; rfl
      rw [e, hps', List.map_map, LinOp.nrows]
      congr 1
      conv_rhs => rw [← List.map_id op.outFlat]
      rfl
    cases f with
    | vec =>
      simp only [Fmt.cols] at hrest
      simp only [if_true, Tensor.squeezeLast, hrest]
      simp only [List.getLast?_cons_cons, List.getLast?_singleton, if_true]
      simp only [InSpace, Fmt.dims, List.dropLast]
      rw [hsum]; rfl
    | mat K =>
      simp only [Fmt.cols] at hrest
      simp only [Bool.false_eq_true, if_false, InSpace, Fmt.dims, hrest]
      rw [hsum]; rfl
  · simp only [if_true] at h
    cases h
    refine ⟨trivial, ?_⟩
    cases f with
    | vec =>
      simp only [if_true, InSpace, Fmt.dims, List.append_nil]
      simp only [List.map_id', Fmt.cols] at hshape ⊢
      rw [List.map_map]
      clear * - hshape
      generalize op.outShape = l at hshape ⊢
      induction AX generalizing l with
      | nil => rcases l with _ | _ <;> simp_all
      | cons t ts ih =>
        rcases l with _ | ⟨s, l⟩
        · simp at hshape
        · simp only [List.map_cons, List.cons.injEq] at hshape ⊢
          refine ⟨?_, ih l hshape.2⟩
          simp [Tensor.squeezeLast, hshape.1]
    | mat K =>
      simpa [InSpace, Fmt.dims, Fmt.cols] using hshape
  · exact hf.elim

/-- C05: a wrong number of output tensors or a wrong output shape raises `ValueError`. -/
theorem matmul_malformed_raises (op : LinOp α) (X : PyVal α) (f : Fmt) (hX : X.WF)
    (hf : InSpace op.inShape f X) (hne : op.inShape ≠ [] ∨ f = .vec ∨ ∃ t, X = .tensor t)
    (hbad : ∀ Xs, ∃ AX, (op.matmat Xs).1 = .ok AX ∧
      AX.map (·.shape) ≠ op.outShape.map (· ++ [f.cols])) :
    (op.matmul X).1 = .error .valueError := by
  obtain ⟨Xs, h1, h2, h3⟩ := pre_of_inSpace op X f hX hf hne
  obtain ⟨AX, hAX, hshape⟩ := hbad Xs
  unfold LinOp.matmul
  simp only [h1, hAX]
  unfold LinOp.post
  by_cases hl : AX.length = op.outShape.length
  · rw [if_neg (by simpa using hl), if_pos]
    by_contra hs
    apply hshape
    apply List.ext_getElem
    · simpa using hl
    · intro i hi1 hi2
      simp only [List.getElem_map]
      by_contra hc
      apply hs
      rw [List.any_eq_true]
      refine ⟨(AX[i]'(by simpa using hi1), op.outShape[i]'(by simpa using hi2)), ?_, by simpa using hc⟩
      rw [List.mem_iff_getElem]
      exact ⟨i, by simp at hi1 hi2 ⊢; omega, by simp⟩
  · rw [if_pos (by simpa using hl)]

/-! ## C03: the four formats -/

/-- What `@` returns in terms of what `_matmat` returns for the entries of `X`, whatever the arithmetic of the entries is. -/
theorem matmul_of_matmat (op : LinOp α) (X : PyVal α) (f : Fmt) (P : List α → Prop)
    (hA : ∀ Xs, HasShapes Xs op.inShape f.cols → flatData Xs = X.entries →
      ∃ Ys, (op.matmat Xs).1 = .ok Ys ∧ HasShapes Ys op.outShape f.cols ∧ P (flatData Ys))
    (hX : X.WF) (hf : InSpace op.inShape f X)
    (hne : op.inShape ≠ [] ∨ f = .vec ∨ ∃ t, X = .tensor t)
    (hout : op.outShape ≠ [] ∨ ∃ ts, X = .list ts) :
    ∃ Y, (op.matmul X).1 = .ok Y ∧ SameKind X Y ∧ InSpace op.outShape f Y ∧ Y.WF ∧ P Y.entries := by
  obtain ⟨Xs, h1, h2, h3⟩ := pre_of_inSpace op X f hX hf hne
  obtain ⟨Ys, hY1, hY2, hY3⟩ := hA Xs h2 h3
  have hlen := hY2.flatData_length
  have hval : ∃ Y, (op.matmul X).1 = .ok Y ∧ Y.WF ∧ Y.entries = flatData Ys := by
    unfold LinOp.matmul
    simp only [h1, hY1]
    rcases X with t | ts | _
    · have ho : op.outShape ≠ [] := by
        rcases hout with h | ⟨ts, h⟩
        · exact h
        · cases h
      simp only [post_tensor op Ys f.cols _ ho hY2]
      refine ⟨_, rfl, ?_, ?_⟩
      · cases f with
        | vec =>
          simp only [Fmt.cols] at hlen ⊢
          simpa [PyVal.WF, Tensor.WF, Tensor.squeezeLast, LinOp.nrows, LinOp.outFlat] using hlen
        | mat K =>
          simp only [Fmt.cols] at hlen ⊢
          simpa [PyVal.WF, Tensor.WF, LinOp.nrows, LinOp.outFlat] using hlen
      · cases f <;> simp [PyVal.entries, Tensor.squeezeLast, Fmt.cols]
    · simp only [post_list op Ys f.cols _ hY2]
      refine ⟨_, rfl, ?_, ?_⟩
      · cases f with
        | vec => simp only [if_true, PyVal.WF]; exact (squeeze_list hY2).2.1
        | mat K => simp only [Bool.false_eq_true, if_false, PyVal.WF]; exact hY2.2
      · cases f with
        | vec => simp only [if_true, PyVal.entries]; exact (squeeze_list hY2).2.2
        | mat K => simp [PyVal.entries]
    · exact hf.elim
  obtain ⟨Y, hY, hYwf, hYe⟩ := hval
  have hs := matmul_output_shape op X Y f hX hf hne hY
  exact ⟨Y, hY, hs.1, hs.2, hYwf, by rw [hYe]; exact hY3⟩

/-- C03: if the operator multiplies with the dense matrix `A`, then `@` returns the dense product in the
format of `X` — vector or matrix, flat tensor or tensor list. (`torch.cat` needs at least one output space
for the flat format.) -/
theorem matmul_correct [NonUnitalNonAssocSemiring α] (op : LinOp α) (A : Mat α)
    (X : PyVal α) (f : Fmt) (hA : RepresentsAt op A f.cols) (hX : X.WF) (hf : InSpace op.inShape f X)
    (hne : op.inShape ≠ [] ∨ f = .vec ∨ ∃ t, X = .tensor t)
    (hout : op.outShape ≠ [] ∨ ∃ ts, X = .list ts) :
    ∃ Y, (op.matmul X).1 = .ok Y ∧ SameKind X Y ∧ InSpace op.outShape f Y ∧ Y.WF ∧
      IsProduct A op.nrows op.ncols f.cols X.entries Y.entries := by
  refine matmul_of_matmat op X f (fun y => IsProduct A op.nrows op.ncols f.cols X.entries y) (fun Xs h2 h3 => ?_) hX hf hne hout
  obtain ⟨Ys, hY1, hY2, hY3⟩ := hA Xs h2
  exact ⟨Ys, hY1, hY2, h3 ▸ hY3⟩

/-- C03: without output spaces, the flat format has nothing to concatenate and raises `RuntimeError`; a tensor list is
answered with an empty list. -/
theorem matmul_no_output (op : LinOp α) (X : PyVal α) (f : Fmt) (hX : X.WF) (hf : InSpace op.inShape f X)
    (hne : op.inShape ≠ [] ∨ f = .vec ∨ ∃ t, X = .tensor t) (ho : op.outShape = [])
    (hA : ∀ Xs, HasShapes Xs op.inShape f.cols → (op.matmat Xs).1 = .ok []) :
    (op.matmul X).1 = match X with | .tensor _ => .error .runtimeError | _ => .ok (.list []) := by
  obtain ⟨Xs, h1, h2, h3⟩ := pre_of_inSpace op X f hX hf hne
  unfold LinOp.matmul
  simp only [h1, hA Xs h2]
  rcases X with t | ts | _
  · have e : ∀ b, op.post [] false b f.cols = .error .runtimeError := fun b => by
      unfold LinOp.post
      rw [ho]
      rfl
    simp only [e]
  · have e : ∀ b, op.post [] true b f.cols = .ok (.list []) := fun b => by
      unfold LinOp.post
      rw [ho]
      cases b <;> rfl
    simp only [e]
  · exact hf.elim

/-- The Jacobian with respect to three parameters of a model without outputs. -/
example (x : Tensor ℤ) (hx : x.shape = [3]) (hw : x.WF) :
    ((⟨[[3]], [], fun Xs => (.ok [], Xs)⟩ : LinOp ℤ).matmul (.tensor x)).1 = .error .runtimeError :=
  matmul_no_output _ (.tensor x) .vec hw (by simpa [InSpace, Fmt.dims] using hx) (.inl (by simp)) rfl fun _ _ => rfl

/-! ## C04: columns -/

/-- C04: if `x` is column `k` of the matrix `X` (in whatever formats the two are given), then `A @ x` is
column `k` of `A @ X`. With `K = 1` this says that a vector and the one-column matrix give the same
numbers. -/
theorem matmul_column [NonUnitalNonAssocSemiring α] (op : LinOp α) (A : Mat α)
    (hA : ∀ K ≥ 1, RepresentsAt op A K) (hi : op.inShape ≠ []) (ho : op.outShape ≠ []) (X x : PyVal α) (K k : Nat)
    (hk : k < K) (hX : X.WF) (hx : x.WF) (hfX : InSpace op.inShape (.mat K) X)
    (hfx : InSpace op.inShape .vec x)
    (hcol : ∀ c < op.ncols, x.entries.getD c 0 = X.entries.getD (c * K + k) 0) :
    ∃ Y y, (op.matmul X).1 = .ok Y ∧ (op.matmul x).1 = .ok y ∧
      y.entries.length = op.nrows ∧ Y.entries.length = op.nrows * K ∧
      ∀ r < op.nrows, y.entries.getD r 0 = Y.entries.getD (r * K + k) 0 := by
  obtain ⟨Y, hY, -, -, -, hYp⟩ := matmul_correct op A X (.mat K) (hA K (by omega)) hX hfX (Or.inl hi) (Or.inl ho)
  obtain ⟨y, hy, -, -, -, hyp⟩ := matmul_correct op A x .vec (hA 1 le_rfl) hx hfx (Or.inl hi) (Or.inl ho)
  refine ⟨Y, y, hY, hy, by simpa [Fmt.cols] using hyp.1, hYp.1, ?_⟩
  intro r hr
  have h1 := hyp.2 r hr 0 (by simp [Fmt.cols])
  have h2 := hYp.2 r hr k hk
  simp only [Fmt.cols, mul_one, add_zero] at h1 h2
  rw [h1, h2]
  exact Finset.sum_congr rfl fun c hc => by rw [hcol c (Finset.mem_range.mp hc)]

/-- C04: multiplying with the identity matrix returns the represented matrix itself. -/
theorem matmul_identity [NonAssocSemiring α] (op : LinOp α) (A : Mat α)
    (hA : Represents op A) (hi : op.inShape ≠ []) (ho : op.outShape ≠ []) (X : PyVal α) (hX : X.WF)
    (hfX : InSpace op.inShape (.mat op.ncols) X)
    (hid : ∀ c < op.ncols, ∀ k < op.ncols,
      X.entries.getD (c * op.ncols + k) 0 = if c = k then 1 else 0) :
    ∃ Y, (op.matmul X).1 = .ok Y ∧
      ∀ r < op.nrows, ∀ k < op.ncols, Y.entries.getD (r * op.ncols + k) 0 = A r k := by
  obtain ⟨Y, hY, -, -, -, hYp⟩ :=
    matmul_correct op A X (.mat op.ncols) (hA op.ncols) hX hfX (Or.inl hi) (Or.inl ho)
  refine ⟨Y, hY, ?_⟩
  intro r hr k hk
  have h2 := hYp.2 r hr k hk
  simp only [Fmt.cols] at h2
  rw [h2, Finset.sum_congr rfl (fun c hc => by rw [hid c (Finset.mem_range.mp hc) k hk])]
  simp [hk]

/-! ## C06: the argument is left unchanged -/

/-- C06: the argument is unchanged for every operator whose `_matmat` does not assign to its argument
list. -/
theorem matmul_preserves_argument (op : LinOp α) (h : ∀ Xs, (op.matmat Xs).2 = Xs) (X : PyVal α) :
    (op.matmul X).2 = X := by
  unfold LinOp.matmul
  rcases hp : op.pre X with e | ⟨Xs, lf, iv, K⟩
  · rfl
  simp only [h Xs]
  have key : (if (lf && !iv) = true then PyVal.list Xs else X) = X := by
    rcases X with t | ts | _
    · simp only [LinOp.pre] at hp
      split at hp <;> cases hp
      simp
    · simp only [LinOp.pre] at hp
      split at hp
      · cases hp
      rename_i r hr
      cases hp
      unfold LinOp.preList at hr
      split at hr
      · cases hr
      split at hr
      · cases hr; simp
      split at hr
      · split at hr
        · cases hr; simp
        · cases hr
      · cases hr
    · cases hp
  rw [key]
  rcases (op.matmat Xs).1 with e | AX <;> rfl

/-- C06: whatever `_matmat` does to its argument list, tensors and tensor-list vectors are unchanged. -/
theorem matmul_preserves_vectors_and_tensors (op : LinOp α) (X : PyVal α) (hX : X.WF)
    (h : (∃ t, X = .tensor t) ∨ InSpace op.inShape .vec X) : (op.matmul X).2 = X := by
  unfold LinOp.matmul
  rcases h with ⟨t, rfl⟩ | h
  · rcases hp : op.pre (.tensor t) with e | ⟨Xs, lf, iv, K⟩
    · rfl
    have : lf = false := by
      simp only [LinOp.pre] at hp
      split at hp <;> cases hp
      rfl
    subst this
    rcases hr : (op.matmat Xs).1 with e | AX <;> simp [hr]
  · obtain ⟨Xs, h1, _, _⟩ := pre_of_inSpace op X .vec hX h (Or.inr (Or.inl rfl))
    simp only [h1, Bool.not_true, Bool.and_false, Bool.false_eq_true, if_false]
    rcases hr : (op.matmat Xs).1 with e | AX <;> simp

/-! ## Non-vacuity: an operator with two input spaces that doubles its input -/

/-- Twice the identity on the space of a `2 × 1` tensor and a scalar. -/
def doubleOp : LinOp Int :=
  { inShape := [[2, 1], []], outShape := [[2, 1], []],
    matmat := fun Xs => (.ok (Xs.map fun t => ⟨t.shape, t.data.map (2 * ·)⟩), Xs) }

theorem doubleOp_represents : Represents doubleOp (fun r c => if r = c then 2 else 0) := by
  intro K Xs h
  have hl : (flatData Xs).length = 3 * K := by simpa [doubleOp] using h.flatData_length
  have hf : flatData (Xs.map fun t => (⟨t.shape, t.data.map (2 * ·)⟩ : Tensor Int)) =
      (flatData Xs).map (2 * ·) := by
    simp [flatData, List.map_flatten, Function.comp_def]
  refine ⟨_, rfl, ⟨?_, ?_⟩, ?_, ?_⟩
  · rw [List.map_map]; exact h.1
  · intro t ht
    obtain ⟨u, hu, rfl⟩ := List.mem_map.mp ht
    simpa [Tensor.WF] using h.2 u hu
  · rw [hf]; simpa [doubleOp, LinOp.nrows, LinOp.outFlat] using hl
  · intro r hr k hk
    have hr3 : r < 3 := by simpa [doubleOp, LinOp.nrows, LinOp.outFlat] using hr
    have hn : doubleOp.ncols = 3 := by simp [doubleOp, LinOp.ncols, LinOp.inFlat]
    have hi : r * K + k < (flatData Xs).length := by rw [hl]; exact flat_index_lt hr3 hk
    rw [hf, hn]
    simp only [ite_mul, zero_mul, Finset.sum_ite_eq, Finset.mem_range, hr3, if_true]
    simp [List.getD_eq_getElem?_getD, hi]

example : (doubleOp.matmul (.tensor ⟨[3, 2], [1, 2, 3, 4, 5, 6]⟩)).1 =
    .ok (.tensor ⟨[3, 2], [2, 4, 6, 8, 10, 12]⟩) := by decide
example : (doubleOp.matmul (.list [⟨[2, 1], [1, 2]⟩, ⟨[], [3]⟩])).1 =
    .ok (.list [⟨[2, 1], [2, 4]⟩, ⟨[], [6]⟩]) := by decide
example : (doubleOp.matmul (.list [⟨[2, 1, 2], [1, 2, 3, 4]⟩, ⟨[3], [5, 6, 7]⟩])).1 =
    .error .valueError := by decide
example : (doubleOp.matmul (.tensor ⟨[], [1]⟩)).1 = .error .indexError := by decide
example : Accepted doubleOp (.list [⟨[2, 1, 2], [1, 2, 3, 4]⟩, ⟨[2], [5, 6]⟩]) := ⟨.mat 2, rfl⟩
example : ¬ Accepted doubleOp (.tensor (⟨[2, 3], [1, 2, 3, 4, 5, 6]⟩ : Tensor Int)) := by
  rintro ⟨f, hf⟩; cases f <;> simp [InSpace, Fmt.dims, doubleOp] at hf

end Curvlinops
