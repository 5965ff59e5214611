import Verif.Model.Numpy
import Mathlib.Algebra.Field.Rat

/-!
# Model of the CG, LSMR and Neumann inverses (`inverse.py:21-293`)
-/

namespace Curvlinops

variable {α : Type _}

/-- `_InverseLinearOperator._matmat` (`inverse.py:24-33`): stack the products `self @ col` with the 1d columns. -/
def inverseMatmat (rows cols : Nat) (matvecImpl : NpVal α → Py (NpVal α)) (_ : Nat) (cs : List (List α)) :
    Py (NpVal α) :=
  let self : SciOp α := ⟨rows, cols, matvecImpl, fun _ _ => .error .notImplementedError⟩
  match pyMapM self.mulVec cs with
  | .error e => .error e
  | .ok ys => columnStack ys

/-! ## Neumann series -/

/-- Element-wise binary operation of arrays of the same shape. Simplification: no broadcasting, other shapes
raise. -/
def NpVal.map2 (f : α → α → α) : NpVal α → NpVal α → Py (NpVal α)
  | .vec u, .vec v => if u.length = v.length then .ok (.vec (List.zipWith f u v)) else .error .valueError
  | .mat r cs, .mat r' ds =>
    if r = r' ∧ cs.length = ds.length then .ok (.mat r (List.zipWith (List.zipWith f) cs ds))
    else .error .valueError
  | _, _ => .error .valueError

/-- Element-wise function. -/
def NpVal.map1 (f : α → α) : NpVal α → NpVal α
  | .vec v => .vec (v.map f)
  | .mat r cs => .mat r (cs.map (List.map f))

/-- `not allclose(result, result)`: some entry is NaN (infinities are close to themselves). -/
def NpVal.hasNaN (isNaN : α → Bool) (x : NpVal α) : Bool := x.ravel.any isNaN

/-- Settings of `NeumannInverseLinearOperator` (`inverse.py:189-191, 248-266`). Simplification: a negative
`num_terms` acts like zero and is not represented. -/
structure NeumannHyper (α : Type _) where
  numTerms : Nat
  scale : α
  checkNan : Bool

/-- The loop of `_matvec` (`inverse.py:282-291`): `n` remaining terms. -/
def neumannLoop [Add α] [Sub α] [Mul α] (isNaN : α → Bool) (A : SciOp α) (h : NeumannHyper α) :
    Nat → NpVal α → NpVal α → Py (NpVal α)
  | 0, _, result => .ok result
  | n + 1, v, result =>
    match A.dot v with
    | .error e => .error e
    | .ok Av =>
      match NpVal.map2 (fun a b => a - h.scale * b) v Av with
      | .error e => .error e
      | .ok v' =>
        match NpVal.map2 (· + ·) result v' with
        | .error e => .error e
        | .ok result' =>
          if h.checkNan && result'.hasNaN isNaN then .error .valueError
          else neumannLoop isNaN A h n v' result'

/-- `_matvec` (`inverse.py:268-293`). -/
def neumannMatvec [Add α] [Sub α] [Mul α] (isNaN : α → Bool) (A : SciOp α) (h : NeumannHyper α)
    (x : NpVal α) : Py (NpVal α) :=
  match neumannLoop isNaN A h h.numTerms x x with
  | .error e => .error e
  | .ok result => .ok (result.map1 (h.scale * ·))

/-- `NeumannInverseLinearOperator` as seen by SciPy (`inverse.py:243`: the shape of `A`). -/
def neumannOp [Add α] [Sub α] [Mul α] (isNaN : α → Bool) (A : SciOp α) (h : NeumannHyper α) : SciOp α where
  rows := A.rows
  cols := A.cols
  matvecImpl := neumannMatvec isNaN A h
  matmatImpl := inverseMatmat A.rows A.cols (neumannMatvec isNaN A h)

/-! ## CG and LSMR -/

/-- Hyper-parameters of CG (`inverse.py:70-77`). Arrays, preconditioners and callbacks are opaque. -/
structure CGHyper (Obj : Type _) where
  x0 : Option Obj
  maxiter : Option Int
  M : Option Obj
  callback : Option Obj
  atol : Option ℚ
  tol : Option ℚ

/-- Arguments of a call of `set_cg_hyperparameters`; `none` means omitted. -/
structure CGArgs (Obj : Type _) where
  x0 : Option (Option Obj) := none
  maxiter : Option (Option Int) := none
  M : Option (Option Obj) := none
  callback : Option (Option Obj) := none
  atol : Option (Option ℚ) := none
  tol : Option (Option ℚ) := none

/-- `set_cg_hyperparameters` (`inverse.py:52-77`): the new dictionary replaces the old one. -/
def setCG {Obj : Type _} (a : CGArgs Obj) : CGHyper Obj :=
  ⟨a.x0.getD none, a.maxiter.getD none, a.M.getD none, a.callback.getD none, a.atol.getD none,
    a.tol.getD (some (1 / 100000))⟩

/-- A `CGInverseLinearOperator`: operator and current hyper-parameters. -/
structure CGState (α Obj : Type _) where
  A : SciOp α
  hyper : CGHyper Obj

/-- `__init__` (`inverse.py:39-50`). -/
def mkCG {Obj : Type _} (A : SciOp α) : CGState α Obj := ⟨A, setCG {}⟩

/-- `set_cg_hyperparameters` on the object. -/
def CGState.set {Obj : Type _} (s : CGState α Obj) (a : CGArgs Obj) : CGState α Obj :=
  { s with hyper := setCG a }

/-- The operator as seen by SciPy (`inverse.py:79-89`); `cg` is SciPy's solver, which returns solution and exit
code. -/
def CGState.toSci {Obj : Type _} (cg : SciOp α → NpVal α → CGHyper Obj → Py (NpVal α × Int))
    (s : CGState α Obj) : SciOp α :=
  let mv : NpVal α → Py (NpVal α) := fun x =>
    match cg s.A x s.hyper with
    | .error e => .error e
    | .ok (result, _) => .ok result
  ⟨s.A.rows, s.A.cols, mv, inverseMatmat s.A.rows s.A.cols mv⟩

/-- Hyper-parameters of LSMR (`inverse.py:129-137`). -/
structure LSMRHyper (Obj : Type _) where
  damp : ℚ
  atol : Option ℚ
  btol : Option ℚ
  conlim : Option ℚ
  maxiter : Option Int
  «show» : Option Bool
  x0 : Option Obj

/-- Arguments of a call of `set_lsmr_hyperparameters`; `none` means omitted. -/
structure LSMRArgs (Obj : Type _) where
  damp : Option ℚ := none
  atol : Option (Option ℚ) := none
  btol : Option (Option ℚ) := none
  conlim : Option (Option ℚ) := none
  maxiter : Option (Option Int) := none
  «show» : Option (Option Bool) := none
  x0 : Option (Option Obj) := none

/-- `set_lsmr_hyperparameters` (`inverse.py:110-137`) with its defaults. -/
def setLSMR {Obj : Type _} (a : LSMRArgs Obj) : LSMRHyper Obj :=
  ⟨a.damp.getD 0, a.atol.getD (some (1 / 1000000)), a.btol.getD (some (1 / 1000000)),
    a.conlim.getD (some (1 / 100000000)), a.maxiter.getD none, a.show.getD (some false), a.x0.getD none⟩

/-- An `LSMRInverseLinearOperator`. -/
structure LSMRState (α Obj : Type _) where
  A : SciOp α
  hyper : LSMRHyper Obj

/-- `__init__` (`inverse.py:98-108`). -/
def mkLSMR {Obj : Type _} (A : SciOp α) : LSMRState α Obj := ⟨A, setLSMR {}⟩

/-- `set_lsmr_hyperparameters` on the object. -/
def LSMRState.set {Obj : Type _} (s : LSMRState α Obj) (a : LSMRArgs Obj) : LSMRState α Obj :=
  { s with hyper := setLSMR a }

/-- `matvec_with_info` (`inverse.py:139-153`); `lsmr` returns the solution and further information. -/
def LSMRState.matvecWithInfo {Obj Info : Type _}
    (lsmr : SciOp α → NpVal α → LSMRHyper Obj → Py (NpVal α × Info)) (s : LSMRState α Obj) (x : NpVal α) :
    Py (NpVal α × Info) := lsmr s.A x s.hyper

/-- The operator as seen by SciPy (`inverse.py:155-164`). -/
def LSMRState.toSci {Obj Info : Type _}
    (lsmr : SciOp α → NpVal α → LSMRHyper Obj → Py (NpVal α × Info)) (s : LSMRState α Obj) : SciOp α :=
  let mv : NpVal α → Py (NpVal α) := fun x =>
    match s.matvecWithInfo lsmr x with
    | .error e => .error e
    | .ok r => .ok r.1
  ⟨s.A.rows, s.A.cols, mv, inverseMatmat s.A.rows s.A.cols mv⟩

/-- SciPy's stopping rule for `conlim` (external code, as documented: terminate if an estimate of the condition
number exceeds `conlim`; `conlim = None` means `1e8`, values `≤ 0` switch the rule off): in the implementation
`1 / condA <= 1 / conlim`. -/
def lsmrConlimStop (conlim : Option ℚ) (condA : ℚ) : Bool :=
  let c := conlim.getD 100000000
  decide (0 < c) && decide (1 / condA ≤ 1 / c)

end Curvlinops
