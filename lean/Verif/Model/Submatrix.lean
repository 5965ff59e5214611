import Verif.Model.Numpy
import Mathlib.Algebra.Ring.Defs
import Mathlib.Data.List.Dedup

/-!
# Model of `submatrix.py` and `outer.py`
-/

namespace Curvlinops

/-- An element of an index list: a Python integer, a non-negative float with integer value `k`, or a Python Boolean. -/
inductive PyIdx
  | int (i : Int)
  | other (k : Nat)
  | bool (b : Bool)
  deriving DecidableEq

/-- `isinstance(i, int)`; Booleans are instances of `int`. -/
def PyIdx.isInt : PyIdx → Bool
  | .int _ => true
  | .other _ => false
  | .bool _ => true

/-- The number that an element equals: `False == 0` and `True == 1`. -/
def PyIdx.value : PyIdx → Int
  | .int i => i
  | .other k => k
  | .bool b => if b then 1 else 0

/-- `i < 0 or i >= n` (`submatrix.py:47`). -/
def PyIdx.outOfBounds (n : Nat) (i : PyIdx) : Bool := i.value < 0 || (n : Int) ≤ i.value

/-- One pass of the loop in `set_submatrix` (`submatrix.py:42-49`). `len(idxs) != len(set(idxs))` is a comparison
of the length with that of the list of values without duplicates. -/
def checkIdxs (n : Nat) (idxs : List PyIdx) : Py Nat :=
  if idxs.any (fun i => !i.isInt) then .error .valueError
  else if idxs.length ≠ (idxs.map PyIdx.value).dedup.length then .error .valueError
  else if idxs.any (fun i => i.outOfBounds n) then .error .valueError
  else .ok idxs.length

/-- A linear operator together with its adjoint (`A.adjoint().adjoint()` is `A`; external code). -/
structure SciPair (α : Type _) where
  op : SciOp α
  adj : SciOp α

/-- The attributes of a `SubmatrixLinearOperator` that `set_submatrix` writes. -/
structure SubState (α : Type _) where
  A : SciPair α
  shape : Nat × Nat
  rowIdxs : List PyIdx
  colIdxs : List PyIdx

variable {α : Type _}

/-- `set_submatrix` (`submatrix.py:27-53`): validates both lists, then sets shape and indices. Returns the
outcome and the state afterwards. -/
def SubState.setSubmatrix (s : SubState α) (rowIdxs colIdxs : List PyIdx) : Py Unit × SubState α :=
  match checkIdxs s.A.op.rows rowIdxs with
  | .error e => (.error e, s)
  | .ok m =>
    match checkIdxs s.A.op.cols colIdxs with
    | .error e => (.error e, s)
    | .ok n => (.ok (), { s with shape := (m, n), rowIdxs := rowIdxs, colIdxs := colIdxs })

/-- `SubmatrixLinearOperator(A, row_idxs, col_idxs)` (`submatrix.py:14-25`). -/
def mkSubmatrix (A : SciPair α) (rowIdxs colIdxs : List PyIdx) : Py (SubState α) :=
  match (SubState.mk A (0, 0) [] []).setSubmatrix rowIdxs colIdxs with
  | (.error e, _) => .error e
  | (.ok (), s) => .ok s

/-- Position in an axis of length `n` that a list element selects (NumPy indexing; negative integers count from
the end). -/
def PyIdx.position (n : Nat) : PyIdx → Py Nat
  | .other _ => .error .indexError
  | i =>
    if 0 ≤ i.value ∧ i.value < n then .ok i.value.toNat
    else if -(n : Int) ≤ i.value ∧ i.value < 0 then .ok (i.value + n).toNat
    else .error .indexError

/-- NumPy converts a list that is used as index to an array; if all elements are Booleans (and there are any), the array is a
mask. Mixed lists of Booleans and integers become integers. -/
def isMask (idxs : List PyIdx) : Bool :=
  !idxs.isEmpty && idxs.all fun | .bool _ => true | _ => false

/-- The list of integers that selects the same entries of an axis of length `n`: a mask must have this length and selects the
positions of `True`. -/
def npIndex (n : Nat) (idxs : List PyIdx) : Py (List PyIdx) :=
  if isMask idxs then
    if idxs.length = n then
      .ok (((List.range n).filter fun p => idxs[p]? == some (.bool true)).map fun p => .int p)
    else .error .indexError
  else .ok idxs

/-- `a[idxs]` for a 1d array. -/
def npGather (a : List α) (idxs : List PyIdx) : Py (List α) :=
  match npIndex a.length idxs with
  | .error e => .error e
  | .ok js => pyMapM (fun i =>
    match i.position a.length with
    | .error e => .error e
    | .ok p => match a[p]? with | none => .error .indexError | some x => .ok x) js

/-- The assignments of `a[idxs] = x` for lists of the same length, in order. -/
def npScatter : List α → List PyIdx → List α → Py (List α)
  | a, [], [] => .ok a
  | a, i :: is, x :: xs =>
    match i.position a.length with
    | .error e => .error e
    | .ok p => npScatter (a.set p x) is xs
  | _, _, _ => .error .valueError

/-- `v[idxs] = x` for a 1d array `v`: a 1d value of the same length is written entry by entry; an `(n, 1)` value
broadcasts to `(n,)` only if `n = 1`, otherwise NumPy raises `ValueError`. With a mask, a 1d value with one entry is written
to all selected positions, other lengths must agree with their number, and `(n, 1)` values raise `ValueError`.
Simplification: 1d values of length one do not occur for integer lists of other lengths, because SciPy checks the dimension
before. -/
def npAssign (v : List α) (idxs : List PyIdx) (value : NpVal α) : Py (List α) :=
  match npIndex v.length idxs with
  | .error e => .error e
  | .ok js =>
    match value with
    | .vec [x] => npScatter v js (if isMask idxs then List.replicate js.length x else [x])
    | .vec x => npScatter v js x
    | .mat r [c] => if r = 1 ∧ isMask idxs = false then npScatter v js c else .error .valueError
    | .mat _ _ => .error .valueError

/-- `_matvec` (`submatrix.py:55-69`). -/
def SubState.matvecImpl [Zero α] (s : SubState α) (x : NpVal α) : Py (NpVal α) :=
  match npAssign (List.replicate s.A.op.cols 0) s.colIdxs x with
  | .error e => .error e
  | .ok v =>
    match s.A.op.mulVec v with
    | .error e => .error e
    | .ok Av =>
      match npGather Av s.rowIdxs with
      | .error e => .error e
      | .ok y => .ok (.vec y)

/-- The operator as seen by SciPy; `_matmat` (`submatrix.py:71-82`) stacks the products `self @ col` with the
1d columns. -/
def SubState.toSci [Zero α] (s : SubState α) : SciOp α where
  rows := s.shape.1
  cols := s.shape.2
  matvecImpl := s.matvecImpl
  matmatImpl _ cs :=
    let self : SciOp α := ⟨s.shape.1, s.shape.2, s.matvecImpl, fun _ _ => .error .notImplementedError⟩
    match pyMapM self.mulVec cs with
    | .error e => .error e
    | .ok ys => columnStack ys

/-- `_adjoint` (`submatrix.py:84-92`). -/
def SubState.adjoint (s : SubState α) : Py (SubState α) :=
  mkSubmatrix ⟨s.A.adj, s.A.op⟩ s.colIdxs s.rowIdxs

/-- The operator with its adjoint, as argument for a further sub-matrix. -/
def SubState.toPair [Zero α] (s : SubState α) : Py (SciPair α) :=
  match s.adjoint with
  | .error e => .error e
  | .ok t => .ok ⟨s.toSci, t.toSci⟩

/-! ## `outer.py` -/

/-- The attributes of an `OuterProductLinearOperator`: `A` is given by its number of rows and its columns. -/
structure OuterState (α : Type _) where
  dim : Nat
  c : List α
  cols : List (List α)

/-- `OuterProductLinearOperator(c, A)` (`outer.py:15-34`). `einsum_path` raises `ValueError` if the sizes of the axes with the
same label are different, unless one of them is one. -/
def mkOuter (dim : Nat) (c : List α) (cols : List (List α)) : Py (OuterState α) :=
  if c.length = cols.length ∨ c.length = 1 ∨ cols.length = 1 then .ok ⟨dim, c, cols⟩ else .error .valueError

/-- `einsum` repeats the entry of an axis of size one if another axis with the same label has size `k`. -/
def npStretch {β : Type _} (k : Nat) : List β → List β
  | [x] => List.replicate k x
  | l => l

/-- Size of the summation index of `einsum`. -/
def OuterState.rank (s : OuterState α) : Nat := if s.c.length = 1 then s.cols.length else s.c.length

/-- `einsum("ij,j,kj,k->i", A, c, A, x)` for a 1d `x` (`outer.py:29, 36-45`): entry `i` is the sum over `j` and `k`
of the products. A 2d `x` has the wrong number of subscripts, `einsum` raises `ValueError`. -/
def OuterState.matvecImpl [Semiring α] (s : OuterState α) : NpVal α → Py (NpVal α)
  | .vec x =>
    .ok (.vec ((List.range s.dim).map fun i =>
      (List.zipWith (fun cj a => a.getD i 0 * cj * npDot a x) (npStretch s.rank s.c) (npStretch s.rank s.cols)).sum))
  | .mat _ _ => .error .valueError

/-- The operator as seen by SciPy (`outer.py:24`); it inherits SciPy's default `_matmat`. -/
def OuterState.toSci [Semiring α] (s : OuterState α) : SciOp α where
  rows := s.dim
  cols := s.dim
  matvecImpl := s.matvecImpl
  matmatImpl := SciOp.defaultMatmat s.dim s.dim s.matvecImpl

/-- `_adjoint` (`outer.py:47-55`): the operator itself. -/
def OuterState.adjoint (s : OuterState α) : OuterState α := s

/-- `Projector(A)` (`outer.py:61-69`): all coefficients one. -/
def mkProjector [Semiring α] (dim : Nat) (cols : List (List α)) : OuterState α :=
  ⟨dim, List.replicate cols.length 1, cols⟩

end Curvlinops
