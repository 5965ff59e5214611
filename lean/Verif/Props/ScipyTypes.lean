import Verif.Model.ScipyTypes
import Verif.Model.Determinism
import Verif.Props.Jacobian
import Verif.Lemmas.BinaryFloat
import Mathlib.Data.Complex.BigOperators

/-!
# C85: the SciPy export and the data types of its arguments
-/

namespace Curvlinops

/-- The type can represent the value. -/
def NpType.Holds (k : Casts) : NpType → ℂ → Prop
  | .bool, z => z = 0 ∨ z = 1
  | .int lo hi, z => ∃ n : ℤ, z = n ∧ lo ≤ n ∧ n ≤ hi
  | .float p, z => ∃ x : ℝ, z = x ∧ k.round p x = x
  | .complex p, z => k.round p z.re = z.re ∧ k.round p z.im = z.im
  | .other, _ => False

/-- The entry of the product of `A` with the argument, after conversion of the argument to the type `dt`. -/
noncomputable def entryOf (k : Casts) (dt : DType) (A : Mat ℝ) (N K : Nat) (x : List ℂ) (r c : Nat) : ℝ :=
  ∑ m ∈ Finset.range N, A r m * k.round dt (x.getD (m * K + c) 0).re

/-- `y` is the array of the entries after conversion to the type `t`. -/
structure IsTypedProduct (k : Casts) (dt : DType) (A : Mat ℝ) (M N K : Nat) (x y : TypedArray) : Prop where
  dtype : y.dtype = x.dtype
  length : y.arr.data.length = M * K
  entry : ∀ r < M, ∀ c < K, y.arr.data.getD (r * K + c) 0 = k.astype x.dtype (entryOf k dt A N K x.arr.data r c)

theorem row_col_lt {M K r c : Nat} (hr : r < M) (hc : c < K) : r * K + c < M * K := by
  calc r * K + c < r * K + K := by omega
    _ = (r + 1) * K := by ring
    _ ≤ M * K := Nat.mul_le_mul_right _ hr

theorem getD_map_lt {β γ : Type _} (f : β → γ) (l : List β) (n : Nat) (b : β) (c : γ) (h : n < l.length) :
    (l.map f).getD n c = f (l.getD n b) := by
  simp [List.getD, h]

theorem wrapTyped_spec (k : Casts) (op : LinOp ℝ) (A : Mat ℝ) (f : Fmt) (hA : RepresentsAt op A f.cols)
    (ho : op.outShape ≠ []) (dt : DType) (X : TypedArray) (ht : X.dtype ≠ .other) (hX : X.arr.WF)
    (hs : X.arr.shape = op.ncols :: f.dims) :
    ∃ Y, wrapTyped k op dt X = .ok Y ∧ Y.arr.shape = op.nrows :: f.dims ∧ Y.arr.WF ∧
      IsTypedProduct k dt A op.nrows op.ncols f.cols X Y := by
  have hlen : X.arr.data.length = op.ncols * f.cols := by
    rw [hX, hs]
    cases f <;> simp [Fmt.dims, Fmt.cols]
  obtain ⟨Y, y1, y2, y3, y4, y5⟩ := matmul_correct op A
    (.tensor ⟨X.arr.shape, X.arr.data.map (k.toTorch dt)⟩) f hA (by simpa [PyVal.WF, Tensor.WF] using hX) hs
    (Or.inr (Or.inr ⟨_, rfl⟩)) (Or.inl ho)
  rcases Y with t | ts | _
  · refine ⟨⟨X.dtype, ⟨t.shape, t.data.map (k.astype X.dtype)⟩⟩, ?_, y3, ?_, rfl, ?_, ?_⟩
    · unfold wrapTyped
      rw [if_neg ht]
      simp only [y1]
    · simpa [Tensor.WF, PyVal.WF] using y4
    · simpa [PyVal.entries] using y5.1
    · intro r hr c hc
      have hl : t.data.length = op.nrows * f.cols := y5.1
      rw [getD_map_lt _ _ _ 0 _ (by rw [hl]; exact row_col_lt hr hc)]
      congr 1
      have := y5.2 r hr c hc
      simp only [PyVal.entries] at this
      rw [this]
      refine Finset.sum_congr rfl fun m hm => ?_
      rw [getD_map_lt _ _ _ 0 _ (by rw [hlen]; exact row_col_lt (Finset.mem_range.mp hm) hc)]
      rfl
  · exact absurd y2 (by simp [SameKind])
  · exact absurd y2 (by simp [SameKind])

theorem typedVec_spec (k : Casts) (op : LinOp ℝ) (A : Mat ℝ) (hA : RepresentsPos op A) (ho : op.outShape ≠ [])
    (dt : DType) (x : TypedArray) (ht : x.dtype ≠ .other) (hx : x.arr.WF)
    (hs : x.arr.shape = [op.ncols] ∨ x.arr.shape = [op.ncols, 1]) :
    ∃ y, typedVec (wrapTyped k op dt) op.nrows op.ncols x = .ok y ∧ y.arr.shape = op.nrows :: x.arr.shape.tail ∧
      IsTypedProduct k dt A op.nrows op.ncols 1 x y := by
  have : ∃ f : Fmt, x.arr.shape = op.ncols :: f.dims ∧ f.cols = 1 := by
    rcases hs with h | h
    · exact ⟨.vec, h, rfl⟩
    · exact ⟨.mat 1, h, rfl⟩
  obtain ⟨f, hf, hc⟩ := this
  obtain ⟨Y, y1, y3, y4, y5⟩ := wrapTyped_spec k op A f (hA _ (by omega)) ho dt x ht hx hf
  have ht' : x.arr.shape.tail = f.dims := by rw [hf]; rfl
  rw [hc] at y5
  refine ⟨⟨Y.dtype, ⟨op.nrows :: x.arr.shape.tail, Y.arr.data⟩⟩, ?_, rfl, y5.dtype, y5.length, y5.entry⟩
  unfold typedVec
  rw [if_pos hs]
  simp only [y1, Tensor.reshape, ht', y3, if_true]

theorem typedMat_spec (k : Casts) (op : LinOp ℝ) (A : Mat ℝ) (K : Nat) (hA : RepresentsAt op A K) (ho : op.outShape ≠ [])
    (dt : DType) (X : TypedArray) (ht : X.dtype ≠ .other) (hX : X.arr.WF) (hs : X.arr.shape = [op.ncols, K]) :
    ∃ Y, typedMat (wrapTyped k op dt) op.ncols X = .ok Y ∧ Y.arr.shape = [op.nrows, K] ∧
      IsTypedProduct k dt A op.nrows op.ncols K X Y := by
  obtain ⟨Y, y1, y3, -, y5⟩ := wrapTyped_spec k op A (.mat K) hA ho dt X ht hX hs
  refine ⟨Y, ?_, y3, y5⟩
  unfold typedMat
  simp only [hs, if_true, y1]

/-- C85, what the four products return for arguments of every type: the argument is rounded to the operator's type (without
imaginary parts), multiplied with the matrix resp. its transpose, and the result is converted to the type of the
argument. Types that PyTorch does not know raise `TypeError`. -/
theorem toScipyTyped_spec (k : Casts) (A At : OpObj ℝ) (M : Mat ℝ) (hAt : A.adjoint = .ok At)
    (hM : RepresentsPos A.op M) (hMt : RepresentsPos At.op (fun r c => M c r)) (hr : At.op.nrows = A.op.ncols)
    (hc : At.op.ncols = A.op.nrows) (hi : At.op.outShape ≠ []) (ho : A.op.outShape ≠ []) (dt : DType) :
    ∃ L, A.toScipyTyped k dt = .ok L ∧ L.rows = A.op.nrows ∧ L.cols = A.op.ncols ∧
      (∀ x : TypedArray, x.dtype ≠ .other → x.arr.WF → (x.arr.shape = [L.cols] ∨ x.arr.shape = [L.cols, 1]) →
        ∃ y, L.matvec x = .ok y ∧ y.arr.shape = L.rows :: x.arr.shape.tail ∧ IsTypedProduct k dt M L.rows L.cols 1 x y) ∧
      (∀ x : TypedArray, x.dtype ≠ .other → x.arr.WF → (x.arr.shape = [L.rows] ∨ x.arr.shape = [L.rows, 1]) →
        ∃ y, L.rmatvec x = .ok y ∧ y.arr.shape = L.cols :: x.arr.shape.tail ∧
          IsTypedProduct k dt (fun r c => M c r) L.cols L.rows 1 x y) ∧
      (∀ K ≥ 1, ∀ x : TypedArray, x.dtype ≠ .other → x.arr.WF → x.arr.shape = [L.cols, K] →
        ∃ y, L.matmat x = .ok y ∧ y.arr.shape = [L.rows, K] ∧ IsTypedProduct k dt M L.rows L.cols K x y) ∧
      (∀ K ≥ 1, ∀ x : TypedArray, x.dtype ≠ .other → x.arr.WF → x.arr.shape = [L.rows, K] →
        ∃ y, L.rmatmat x = .ok y ∧ y.arr.shape = [L.cols, K] ∧
          IsTypedProduct k dt (fun r c => M c r) L.cols L.rows K x y) ∧
      ∀ x : TypedArray, x.dtype = .other →
        (x.arr.shape = [L.cols] → L.matvec x = .error .typeError) ∧
        (x.arr.shape = [L.rows] → L.rmatvec x = .error .typeError) ∧
        (∀ K, x.arr.shape = [L.cols, K] → L.matmat x = .error .typeError) ∧
        ∀ K, x.arr.shape = [L.rows, K] → L.rmatmat x = .error .typeError := by
  refine ⟨_, by unfold OpObj.toScipyTyped; rw [hAt], rfl, rfl, ?_, ?_, ?_, ?_, ?_⟩
  · intro x ht hx hs
    exact typedVec_spec k A.op M hM ho dt x ht hx hs
  · intro x ht hx hs
    have := typedVec_spec k At.op _ hMt hi dt x ht hx (hc ▸ hs)
    rw [hr, hc] at this
    exact this
  · intro K hK x ht hx hs
    exact typedMat_spec k A.op M K (hM K hK) ho dt x ht hx hs
  · intro K hK x ht hx hs
    have := typedMat_spec k At.op _ K (hMt K hK) hi dt x ht hx (hc ▸ hs)
    rw [hr, hc] at this
    exact this
  · intro x ht
    have hw : ∀ op : LinOp ℝ, wrapTyped k op dt x = .error .typeError := fun op => by
      unfold wrapTyped
      rw [if_pos ht]
    refine ⟨fun hs => ?_, fun hs => ?_, fun K hs => ?_, fun K hs => ?_⟩ <;>
      simp only at hs <;> simp [typedVec, typedMat, hs, hw]

/-! ## When the result is the product -/

theorem truncate_int (n : ℤ) : truncate (n : ℝ) = n := by
  unfold truncate
  split <;> simp

/-- Values that the type holds are not changed. -/
theorem astype_holds (k : Casts) (t : NpType) (x : ℝ) (h : t.Holds k (x : ℂ)) : k.astype t x = x := by
  cases t with
  | bool =>
    rcases h with h | h
    · have : x = 0 := by exact_mod_cast h
      simp [Casts.astype, this]
    · have : x = 1 := by exact_mod_cast h
      simp [Casts.astype, this]
  | int lo hi =>
    obtain ⟨n, hn, h1, h2⟩ := h
    have : x = n := by exact_mod_cast hn
    subst this
    simp [Casts.astype, truncate_int, h1, h2]
  | float p =>
    obtain ⟨y, hy, hr⟩ := h
    have : x = y := by exact_mod_cast hy
    subst this
    simp [Casts.astype, hr]
  | complex p => simp only [Casts.astype]; rw [show k.round p x = x by simpa using h.1]
  | other => exact absurd h (by simp [NpType.Holds])

/-- The complex matrix with the given real entries. -/
def Mat.toComplex (A : Mat ℝ) : Mat ℂ := fun r c => (A r c : ℂ)

/-- C85: if the argument is real and the operator's type holds its entries, and the argument's type holds the entries of the
product, then the SciPy export returns the product. (Missing: other arguments, see `scipy_integer_truncates`,
`scipy_bool`, `scipy_complex_real`.) -/
theorem scipy_exact_partial (k : Casts) (dt : DType) (A : Mat ℝ) (M N K : Nat) (x y : TypedArray)
    (h : IsTypedProduct k dt A M N K x y) (hreal : ∀ z ∈ x.arr.data, NpType.Holds k (.float dt) z) (hlen : x.arr.data.length = N * K)
    (hres : ∀ r < M, ∀ c < K,
      x.dtype.Holds k (∑ m ∈ Finset.range N, A.toComplex r m * x.arr.data.getD (m * K + c) 0)) :
    IsProduct A.toComplex M N K x.arr.data y.arr.data := by
  refine ⟨h.length, fun r hr c hc => ?_⟩
  rw [h.entry r hr c hc]
  have he : (entryOf k dt A N K x.arr.data r c : ℂ) =
      ∑ m ∈ Finset.range N, A.toComplex r m * x.arr.data.getD (m * K + c) 0 := by
    unfold entryOf Mat.toComplex
    rw [Complex.ofReal_sum]
    refine Finset.sum_congr rfl fun m hm => ?_
    rw [Complex.ofReal_mul]
    have hlt : m * K + c < x.arr.data.length := by
      rw [hlen]
      exact row_col_lt (Finset.mem_range.mp hm) hc
    have hmem : x.arr.data.getD (m * K + c) 0 ∈ x.arr.data := by
      simp [List.getD, hlt]
    obtain ⟨v, hv, hr⟩ := hreal _ hmem
    rw [hv, Complex.ofReal_re, hr]
  rw [astype_holds k _ _ (by rw [he]; exact hres r hr c hc), he]

/-- C85 is violated for arguments with integer entries: the entries of the product are truncated toward zero (if the
type holds the truncated value). -/
theorem scipy_integer_truncates (k : Casts) (dt : DType) (A : Mat ℝ) (M N K : Nat) (x y : TypedArray) (lo hi : ℤ)
    (ht : x.dtype = .int lo hi) (h : IsTypedProduct k dt A M N K x y) (r : Nat) (hr : r < M) (c : Nat) (hc : c < K)
    (hlo : (lo : ℝ) ≤ entryOf k dt A N K x.arr.data r c) (hhi : entryOf k dt A N K x.arr.data r c ≤ hi) :
    ∃ n : ℤ, y.arr.data.getD (r * K + c) 0 = n ∧ |(n : ℝ)| ≤ |entryOf k dt A N K x.arr.data r c| ∧
      |entryOf k dt A N K x.arr.data r c - n| < 1 ∧ 0 ≤ (n : ℝ) * entryOf k dt A N K x.arr.data r c ∧
      (y.arr.data.getD (r * K + c) 0 = entryOf k dt A N K x.arr.data r c ↔
        ∃ m : ℤ, entryOf k dt A N K x.arr.data r c = m) := by
  have he := h.entry r hr c hc
  rw [ht] at he
  generalize entryOf k dt A N K x.arr.data r c = v at *
  have hb : lo ≤ truncate v ∧ truncate v ≤ hi := by
    unfold truncate
    split
    · exact ⟨Int.le_floor.mpr hlo, by exact_mod_cast (Int.floor_le v).trans hhi⟩
    · exact ⟨by exact_mod_cast hlo.trans (Int.le_ceil v), Int.ceil_le.mpr hhi⟩
  simp only [Casts.astype, if_pos hb] at he
  refine ⟨truncate v, he, ?_, ?_, ?_, ?_⟩
  · unfold truncate
    split
    · rename_i hv
      have h0 : (0 : ℝ) ≤ ⌊v⌋ := by exact_mod_cast Int.floor_nonneg.mpr hv
      rw [abs_of_nonneg h0, abs_of_nonneg hv]
      exact Int.floor_le v
    · rename_i hv
      have hv := not_le.mp hv
      have h0 : ((⌈v⌉ : ℤ) : ℝ) ≤ 0 := by exact_mod_cast Int.ceil_le.mpr (by simpa using hv.le)
      rw [abs_of_nonpos h0, abs_of_neg hv]
      linarith [Int.le_ceil v]
  · unfold truncate
    split
    · rw [abs_lt]
      constructor <;> linarith [Int.floor_le v, Int.lt_floor_add_one v]
    · rw [abs_lt]
      constructor <;> linarith [Int.le_ceil v, Int.ceil_lt_add_one v]
  · unfold truncate
    split
    · rename_i hv
      exact mul_nonneg (by exact_mod_cast Int.floor_nonneg.mpr hv) hv
    · rename_i hv
      have hv := not_le.mp hv
      exact mul_nonneg_of_nonpos_of_nonpos (by exact_mod_cast Int.ceil_le.mpr (by simpa using hv.le)) hv.le
  · rw [he]
    constructor
    · intro h
      exact ⟨truncate v, by exact_mod_cast h.symm⟩
    · rintro ⟨m, rfl⟩
      rw [truncate_int]
      simp

/-- C85 is violated for Boolean arguments: the result tells which entries of the product are not zero. -/
theorem scipy_bool (k : Casts) (dt : DType) (A : Mat ℝ) (M N K : Nat) (x y : TypedArray) (ht : x.dtype = .bool)
    (h : IsTypedProduct k dt A M N K x y) (r : Nat) (hr : r < M) (c : Nat) (hc : c < K) :
    (entryOf k dt A N K x.arr.data r c = 0 → y.arr.data.getD (r * K + c) 0 = 0) ∧
    (entryOf k dt A N K x.arr.data r c ≠ 0 → y.arr.data.getD (r * K + c) 0 = 1) := by
  rw [h.entry r hr c hc, ht]
  simp only [Casts.astype]
  exact ⟨fun h => by rw [if_pos h], fun h => by rw [if_neg h]⟩

/-- C85: for floating point arguments that the operator's type holds, the result is the product, rounded to the type of the argument. -/
theorem scipy_float_rounds (k : Casts) (dt : DType) (A : Mat ℝ) (M N K : Nat) (x y : TypedArray) (p : DType) (ht : x.dtype = .float p)
    (h : IsTypedProduct k dt A M N K x y) (u : Nat → ℝ) (hu : ∀ n, x.arr.data.getD n 0 = u n)
    (hround : ∀ n < N * K, k.round dt (u n) = u n) (r : Nat) (hr : r < M) (c : Nat) (hc : c < K) :
    y.arr.data.getD (r * K + c) 0 = (k.round p (∑ m ∈ Finset.range N, A r m * u (m * K + c)) : ℂ) := by
  rw [h.entry r hr c hc, ht]
  simp only [Casts.astype]
  congr 2
  unfold entryOf
  refine Finset.sum_congr rfl fun m hm => ?_
  congr 1
  have hlt := row_col_lt (Finset.mem_range.mp hm) hc
  rw [hu, Complex.ofReal_re, hround _ hlt]

/-- C85 is violated for complex arguments: the imaginary parts are ignored, all results are real. -/
theorem scipy_complex_real (k : Casts) (dt : DType) (A : Mat ℝ) (M N K : Nat) (x y x' : TypedArray) (p : DType)
    (ht : x.dtype = .complex p) (h : IsTypedProduct k dt A M N K x y) :
    (∀ r < M, ∀ c < K, (y.arr.data.getD (r * K + c) 0).im = 0) ∧
    ∀ y', IsTypedProduct k dt A M N K x' y' → x'.dtype = .complex p →
      (∀ n, (x'.arr.data.getD n 0).re = (x.arr.data.getD n 0).re) → y'.arr.data = y.arr.data := by
  constructor
  · intro r hr c hc
    rw [h.entry r hr c hc, ht]
    simp [Casts.astype]
  · intro y' h' ht' hre
    refine List.ext_getElem (h'.length.trans h.length.symm) fun n h1 h2 => ?_
    have hn : n < M * K := h.length ▸ h2
    have hK : 0 < K := by
      rcases Nat.eq_zero_or_pos K with rfl | hK
      · simp at hn
      · exact hK
    have hr : n / K < M := Nat.div_lt_of_lt_mul (by rwa [Nat.mul_comm] at hn)
    have e1 := h.entry (n / K) hr (n % K) (Nat.mod_lt _ hK)
    have e2 := h'.entry (n / K) hr (n % K) (Nat.mod_lt _ hK)
    rw [Nat.div_add_mod'] at e1 e2
    simp only [List.getD, List.getElem?_eq_getElem h1, List.getElem?_eq_getElem h2, Option.getD_some] at e1 e2
    rw [e1, e2, ht, ht']
    congr 1
    unfold entryOf
    exact Finset.sum_congr rfl fun m _ => by rw [hre]

/-! ## Examples and counterexamples -/

/-- An operator with one parameter that multiplies with `1/2`. -/
noncomputable def halfOp : LinOp ℝ :=
  { inShape := [[1]], outShape := [[1]], matmat := fun X => (.ok (X.map (Tensor.scale (1 / 2))), X) }

theorem halfOp_represents : Represents halfOp fun _ _ => 1 / 2 := by
  intro K Xs hX
  obtain ⟨h1, h2⟩ := hX
  match Xs, h1, h2 with
  | [], h1, _ => simp [halfOp] at h1
  | _ :: _ :: _, h1, _ => exact absurd (congrArg List.length h1) (by simp [halfOp])
  | [t], h1, h2 =>
    have hs : t.shape = [1, K] := by simpa [halfOp] using h1
    have hw : t.data.length = K := by
      have := h2 t (by simp)
      rw [Tensor.WF, hs] at this
      simpa using this
    have hn : halfOp.nrows = 1 := rfl
    have hc : halfOp.ncols = 1 := rfl
    refine ⟨[t.scale (1 / 2)], rfl, ⟨by simp [Tensor.scale, hs, halfOp], ?_⟩, ?_⟩
    · intro u hu
      rw [List.mem_singleton.mp hu]
      simp [Tensor.WF, Tensor.scale, hs, hw]
    · rw [hn, hc]
      refine ⟨by simp [flatData, Tensor.scale, hw], fun r hr k hk => ?_⟩
      obtain rfl : r = 0 := by omega
      have hk' : k < t.data.length := by rw [hw]; exact hk
      simp [flatData, Tensor.scale, hk']

/-- The export of the operator. -/
theorem half_scipy (k : Casts) : ∃ L, (OpObj.plain true halfOp).toScipyTyped k .float32 = .ok L ∧
    ∀ (t : NpType) (z : ℂ), t ≠ .other → ∃ v, L.matvec ⟨t, ⟨[1], [z]⟩⟩ = .ok ⟨t, ⟨[1], [v]⟩⟩ ∧
      v = k.astype t (1 / 2 * k.round .float32 z.re) := by
  obtain ⟨L, l1, l2, l3, l4, -⟩ := toScipyTyped_spec k (.plain true halfOp) (.plain true halfOp) (fun _ _ => 1 / 2) rfl
    (fun K _ => halfOp_represents K) (fun K _ => halfOp_represents K) rfl rfl (by simp [OpObj.op, halfOp])
    (by simp [OpObj.op, halfOp]) .float32
  refine ⟨L, l1, fun t z ht => ?_⟩
  have hc : L.cols = 1 := l3
  have hr : L.rows = 1 := l2
  obtain ⟨y, y1, y2, y3⟩ := l4 ⟨t, ⟨[1], [z]⟩⟩ ht rfl (Or.inl (by rw [hc]))
  rw [hr] at y2 y3
  rw [hc] at y3
  obtain ⟨d1, d2, d3⟩ := y3
  obtain ⟨dt, sh, data⟩ := y
  simp only at d1 d2 d3 y2
  obtain ⟨v, rfl⟩ := List.length_eq_one_iff.mp (by simpa using d2)
  refine ⟨v, by rw [y1, d1, y2]; rfl, ?_⟩
  have := d3 0 (by norm_num) 0 (by norm_num)
  simpa [entryOf] using this

/-- C85 is violated: multiplication of `(1/2)` with the integer 1 gives 0, with `True` gives `True`, with the complex number
`i` gives 0. With floating point numbers that hold the values, 1 gives `1/2`. -/
theorem scipy_types_witness (k : Casts) (h0 : ∀ p, k.round p 0 = 0) (h1 : ∀ p, k.round p 1 = 1)
    (hh : ∀ p, k.round p (1 / 2) = 1 / 2) :
    ∃ L, (OpObj.plain true halfOp).toScipyTyped k .float32 = .ok L ∧
      L.matvec ⟨.int (-2 ^ 63) (2 ^ 63 - 1), ⟨[1], [1]⟩⟩ = .ok ⟨.int (-2 ^ 63) (2 ^ 63 - 1), ⟨[1], [0]⟩⟩ ∧
      L.matvec ⟨.bool, ⟨[1], [1]⟩⟩ = .ok ⟨.bool, ⟨[1], [1]⟩⟩ ∧
      L.matvec ⟨.complex .float64, ⟨[1], [Complex.I]⟩⟩ = .ok ⟨.complex .float64, ⟨[1], [0]⟩⟩ ∧
      ∀ p, L.matvec ⟨.float p, ⟨[1], [1]⟩⟩ = .ok ⟨.float p, ⟨[1], [1 / 2]⟩⟩ := by
  obtain ⟨L, hL, h⟩ := half_scipy k
  refine ⟨L, hL, ?_, ?_, ?_, fun p => ?_⟩
  · obtain ⟨v, hv, he⟩ := h (.int (-2 ^ 63) (2 ^ 63 - 1)) 1 (by simp)
    rw [hv, he]
    have : truncate (1 / 2 : ℝ) = 0 := by
      unfold truncate
      rw [if_pos (by norm_num), Int.floor_eq_zero_iff]
      constructor <;> norm_num
    simp only [Complex.one_re, h1, mul_one, Casts.astype, this]
    norm_num
  · obtain ⟨v, hv, he⟩ := h .bool 1 (by simp)
    rw [hv, he]
    simp [Casts.astype, h1]
  · obtain ⟨v, hv, he⟩ := h (.complex .float64) Complex.I (by simp)
    rw [hv, he]
    simp [Casts.astype, h0]
  · obtain ⟨v, hv, he⟩ := h (.float p) 1 (by simp)
    rw [hv, he]
    simp only [Casts.astype, Complex.one_re, h1, mul_one, hh]
    norm_num

/-- Binary rounding with the digits of the four types. -/
noncomputable def binaryCasts : Casts where
  round
    | .float16 => binaryRnd 10
    | .bfloat16 => binaryRnd 7
    | .float32 => binaryRnd 23
    | .float64 => binaryRnd 52
  overflow := fun _ => 0

/-- Integers with at most eight digits, divided by powers of two, are not rounded. -/
theorem binaryCasts_exact (p : DType) (m e : ℤ) (hm : |m| ≤ 2 ^ 8) : binaryCasts.round p (m * 2 ^ e) = m * 2 ^ e := by
  cases p <;> exact binary_exact _ m (hm.trans (by norm_num)) e

theorem binaryCasts_int (p : DType) (m : ℤ) (hm : |m| ≤ 2 ^ 8) : binaryCasts.round p m = m := by
  simpa using binaryCasts_exact p m 0 hm

/-- With binary rounding, the integers `-7` and `6` become `-3` and `3`, the Boolean `False` stays `False`, and the complex number
`6 + i` becomes `3`. -/
example : ∃ L, (OpObj.plain true halfOp).toScipyTyped binaryCasts .float32 = .ok L ∧
    L.matvec ⟨.int (-128) 127, ⟨[1], [-7]⟩⟩ = .ok ⟨.int (-128) 127, ⟨[1], [-3]⟩⟩ ∧
    L.matvec ⟨.int (-128) 127, ⟨[1], [6]⟩⟩ = .ok ⟨.int (-128) 127, ⟨[1], [3]⟩⟩ ∧
    L.matvec ⟨.bool, ⟨[1], [0]⟩⟩ = .ok ⟨.bool, ⟨[1], [0]⟩⟩ ∧
    L.matvec ⟨.complex .float64, ⟨[1], [6 + Complex.I]⟩⟩ = .ok ⟨.complex .float64, ⟨[1], [3]⟩⟩ := by
  obtain ⟨L, hL, h⟩ := half_scipy binaryCasts
  have r0 := binaryCasts_int .float32 0 (by norm_num)
  have r6 := binaryCasts_int .float32 6 (by norm_num)
  have r7 := binaryCasts_int .float32 (-7) (by norm_num)
  have r3 := binaryCasts_int .float64 3 (by norm_num)
  push_cast at r0 r6 r7 r3
  refine ⟨L, hL, ?_, ?_, ?_, ?_⟩
  · obtain ⟨v, hv, he⟩ := h (.int (-128) 127) (-7) (by simp)
    have ht : truncate (1 / 2 * (-7) : ℝ) = -3 := by
      unfold truncate
      rw [if_neg (by norm_num), Int.ceil_eq_iff]
      constructor <;> norm_num
    have hre : ((-7 : ℂ)).re = -7 := by simp
    rw [hv, he, hre, r7]
    simp only [Casts.astype, ht]
    norm_num
  · obtain ⟨v, hv, he⟩ := h (.int (-128) 127) 6 (by simp)
    have ht : truncate (1 / 2 * 6 : ℝ) = 3 := by
      have : (1 / 2 * 6 : ℝ) = ((3 : ℤ) : ℝ) := by norm_num
      rw [this, truncate_int]
    have hre : ((6 : ℂ)).re = 6 := by simp
    rw [hv, he, hre, r6]
    simp only [Casts.astype, ht]
    norm_num
  · obtain ⟨v, hv, he⟩ := h .bool 0 (by simp)
    rw [hv, he]
    simp [Casts.astype, r0]
  · obtain ⟨v, hv, he⟩ := h (.complex .float64) (6 + Complex.I) (by simp)
    have hre : ((6 : ℂ) + Complex.I).re = 6 := by simp
    rw [hv, he, hre, r6]
    simp only [Casts.astype]
    rw [show (1 / 2 * 6 : ℝ) = 3 by norm_num, r3]
    norm_num

/-- The hypotheses of the witness hold for binary rounding. -/
example := scipy_types_witness binaryCasts (fun p => by simpa using binaryCasts_int p 0 (by norm_num))
  (fun p => by simpa using binaryCasts_int p 1 (by norm_num)) (fun p => by simpa using binaryCasts_exact p 1 (-1) (by norm_num))

end Curvlinops
