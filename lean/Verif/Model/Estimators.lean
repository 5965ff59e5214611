import Verif.Model.Numpy
import Mathlib.Algebra.Ring.Defs

/-!
# Model of `sampling.py` and of the trace, diagonal and norm estimators

The world `W` holds everything that calls can change: NumPy's global random generator and whatever the linear
operator depends on. A call of the operator may raise at any time.
-/

namespace Curvlinops

/-- External functions: NumPy's generator (`binomial(1, 0.5, size=dim)` as booleans and `randn(dim)`), the product
`A @ v` with a 1d array, and the reduced QR decomposition, which returns the columns of `Q`. -/
structure Ext (α W : Type _) where
  bits : Nat → W → List Bool × W
  randn : Nat → W → List α × W
  mul : List α → W → Py (List α) × W
  qr : List (List α) → List (List α)

/-- The `distribution` argument: a string, or another object, whose `__format__` rejects the format
specification `!r` (`sampling.py:51`). -/
inductive DistArg
  | str (s : String)
  | nonStr
  deriving DecidableEq

variable {α W : Type _}

/-- `rademacher` (`sampling.py:7-17`): `binomial(...).astype(float) * 2 - 1`. -/
def rademacher [Ring α] (E : Ext α W) (dim : Nat) (w : W) : List α × W :=
  let r := E.bits dim w
  (r.1.map fun b => (if b then 1 else 0) * 2 - 1, r.2)

/-- `normal` (`sampling.py:20-29`). -/
def normal (E : Ext α W) (dim : Nat) (w : W) : List α × W := E.randn dim w

/-- `random_vector` (`sampling.py:32-51`). The message is built with the format specification `!r`, which raises
`ValueError` for strings (so the class of the exception is as documented) and `TypeError` for other objects. -/
def randomVector [Ring α] (E : Ext α W) (dim : Nat) (dist : DistArg) (w : W) : Py (List α) × W :=
  match dist with
  | .str s =>
    if s = "rademacher" then let r := rademacher E dim w; (.ok r.1, r.2)
    else if s = "normal" then let r := normal E dim w; (.ok r.1, r.2)
    else (.error .valueError, w)
  | .nonStr => (.error .typeError, w)

/-- The check in the constructors of the trace and diagonal estimators (`trace/hutchinson.py:61-62`,
`trace/meyer2020hutch.py:89-90`, `diagonal/hutchinson.py:65-66`). -/
def checkSquare (shape : List Nat) : Py Unit :=
  if shape.length ≠ 2 ∨ shape[0]? ≠ shape[1]? then .error .valueError else .ok ()

/-- Draw a vector and multiply it with the operator: the common start of all `sample` methods. -/
def drawAndMul [Ring α] (E : Ext α W) (dim : Nat) (dist : DistArg) (w : W) :
    Py (List α × List α) × W :=
  match randomVector E dim dist w with
  | (.error e, w) => (.error e, w)
  | (.ok v, w) =>
    match E.mul v w with
    | (.error e, w) => (.error e, w)
    | (.ok Av, w) => (.ok (v, Av), w)

/-- `HutchinsonTraceEstimator.sample` (`trace/hutchinson.py:65-82`). -/
def hutchTrace [Ring α] (E : Ext α W) (dim : Nat) (dist : DistArg) (w : W) : Py α × W :=
  match drawAndMul E dim dist w with
  | (.error e, w) => (.error e, w)
  | (.ok (v, Av), w) => (.ok (npDot v Av), w)

/-- `HutchinsonDiagonalEstimator.sample` (`diagonal/hutchinson.py:69-86`). -/
def hutchDiag [Ring α] (E : Ext α W) (dim : Nat) (dist : DistArg) (w : W) : Py (List α) × W :=
  match drawAndMul E dim dist w with
  | (.error e, w) => (.error e, w)
  | (.ok (v, Av), w) => (.ok (List.zipWith (· * ·) v Av), w)

/-- `HutchinsonSquaredFrobeniusNormEstimator.sample` (`norm/hutchinson.py:49-66`). -/
def hutchNorm [Ring α] (E : Ext α W) (dim : Nat) (dist : DistArg) (w : W) : Py α × W :=
  match drawAndMul E dim dist w with
  | (.error e, w) => (.error e, w)
  | (.ok (_, Av), w) => (.ok (npDot Av Av), w)

/-! ## Hutch++ -/

/-- A `HutchPPTraceEstimator`: dimension, basis dimension and distribution, and the two buffers
(`trace/meyer2020hutch.py:91-105`). -/
structure HutchPP (α : Type _) where
  dim : Nat
  basisDim : Int
  basisDist : DistArg
  Q : Option (List (List α))
  tr : Option α

/-- `__init__` (`trace/meyer2020hutch.py:58-105`). -/
def mkHutchPP (shape : List Nat) (basisDim : Option Int) (dist : DistArg) : Py (HutchPP α) :=
  match checkSquare shape with
  | .error e => .error e
  | .ok () =>
    let dim := shape.getD 1 0
    let bd := basisDim.getD (min 10 (max ((dim : Int) / 100) 1))
    if (dim : Int) < bd then .error .valueError
    else .ok ⟨dim, bd, dist, none, none⟩

/-- The list comprehension for `AS` (`trace/meyer2020hutch.py:140-145`). -/
def basisLoop [Ring α] (E : Ext α W) (dim : Nat) (dist : DistArg) : Nat → W → Py (List (List α)) × W
  | 0, w => (.ok [], w)
  | n + 1, w =>
    match drawAndMul E dim dist w with
    | (.error e, w) => (.error e, w)
    | (.ok (_, As), w) =>
      match basisLoop E dim dist n w with
      | (.error e, w) => (.error e, w)
      | (.ok rest, w) => (.ok (As :: rest), w)

/-- The loop that accumulates the trace in `self._tr_QT_A_Q` (`trace/meyer2020hutch.py:148-152`), over the columns
of `Q`. The second component is the value of the attribute when the loop ends or raises. -/
def traceLoop [Ring α] (E : Ext α W) : List (List α) → α → W → Py Unit × α × W
  | [], tr, w => (.ok (), tr, w)
  | q :: qs, tr, w =>
    match E.mul q w with
    | (.error e, w) => (.error e, tr, w)
    | (.ok Aq, w) => traceLoop E qs (tr + npDot q Aq) w

/-- `maybe_compute_and_cache_subspace` (`trace/meyer2020hutch.py:134-152`). The loop visits `self._Q[:, i]` for
`i < basis_dim`; a missing column raises `IndexError`. -/
def HutchPP.maybeCompute [Ring α] (E : Ext α W) (s : HutchPP α) (w : W) : Py Unit × HutchPP α × W :=
  if s.Q.isSome && s.tr.isSome then (.ok (), s, w)
  else
    match basisLoop E s.dim s.basisDist s.basisDim.toNat w with
    | (.error e, w) => (.error e, s, w)
    | (.ok cols, w) =>
      match columnStack cols with
      | .error e => (.error e, s, w)
      | .ok _ =>
        let Q := E.qr cols
        let r := traceLoop E (Q.take s.basisDim.toNat) 0 w
        let s' := { s with Q := some Q, tr := some r.2.1 }
        match r.1 with
        | .error e => (.error e, s', r.2.2)
        | .ok () => if Q.length < s.basisDim.toNat then (.error .indexError, s', r.2.2) else (.ok (), s', r.2.2)

/-- `v - Q (Qᵀ v)` for the columns of `Q` (`trace/meyer2020hutch.py:130`). -/
def projectOut [Ring α] (Q : List (List α)) (v : List α) : List α :=
  (List.range v.length).map fun i => v.getD i 0 - (Q.map fun q => q.getD i 0 * npDot q v).sum

/-- `sample` (`trace/meyer2020hutch.py:107-132`). -/
def HutchPP.sample [Ring α] (E : Ext α W) (s : HutchPP α) (dist : DistArg) (w : W) :
    Py α × HutchPP α × W :=
  match s.maybeCompute E w with
  | (.error e, s, w) => (.error e, s, w)
  | (.ok (), s, w) =>
    match randomVector E s.dim dist w with
    | (.error e, w) => (.error e, s, w)
    | (.ok v, w) =>
      match s.Q, s.tr with
      | some Q, some tr =>
        let v := projectOut Q v
        match E.mul v w with
        | (.error e, w) => (.error e, s, w)
        | (.ok Av, w) => (.ok (tr + npDot v Av), s, w)
      | _, _ => (.error .typeError, s, w)

end Curvlinops
