import Verif.Model.Submatrix
import Verif.Model.KfacState

/-!
# Model of objects that share lists and tensors with the caller

`SubmatrixLinearOperator` stores the index lists it is given (`submatrix.py:52-53`), not copies. The properties of
`KFACLinearOperator` return the tensors they cache (`kfac.py:777-778`, `799`).
-/

namespace Curvlinops

variable {α : Type _}

/-- The contents of the lists that the program holds, by reference. -/
abbrev IdxHeap := Nat → List PyIdx

/-- A `SubmatrixLinearOperator`: `SubState` with references to its index lists. -/
structure SubObj (α : Type _) where
  A : SciPair α
  shape : Nat × Nat
  rowRef : Nat
  colRef : Nat

/-- The attributes with the present contents of the lists. -/
def SubObj.value (h : IdxHeap) (o : SubObj α) : SubState α := ⟨o.A, o.shape, h o.rowRef, h o.colRef⟩

/-- `set_submatrix` (`submatrix.py:27-53`) with the lists at the references `r` and `c`. -/
def SubObj.set (h : IdxHeap) (r c : Nat) (o : SubObj α) : Py Unit × SubObj α :=
  match (o.value h).setSubmatrix (h r) (h c) with
  | (.error e, _) => (.error e, o)
  | (.ok (), s) => (.ok (), ⟨o.A, s.shape, r, c⟩)

/-- What a program does: change a list, create an operator, re-index one, or take an adjoint. -/
inductive SubMove (α : Type _)
  | change (ref : Nat) (l : List PyIdx)
  | create (A : SciPair α) (r c : Nat)
  | set (i : Nat) (r c : Nat)
  | adjoint (i : Nat)

/-- Lists and operators of a program. -/
structure SubSys (α : Type _) where
  heap : IdxHeap
  objs : List (SubObj α)

/-- One move; exceptions are caught by the program. `__init__` (`submatrix.py:14-25`) and `_adjoint`
(`submatrix.py:84-92`), which hands on the lists of the operator, create operators. -/
def SubSys.step (s : SubSys α) : SubMove α → SubSys α
  | .change ref l => { s with heap := Function.update s.heap ref l }
  | .create A r c =>
    match SubObj.set s.heap r c ⟨A, (0, 0), r, c⟩ with
    | (.error _, _) => s
    | (.ok (), o) => { s with objs := s.objs ++ [o] }
  | .set i r c =>
    match s.objs[i]? with
    | none => s
    | some o => { s with objs := s.objs.set i (o.set s.heap r c).2 }
  | .adjoint i =>
    match s.objs[i]? with
    | none => s
    | some o =>
      match SubObj.set s.heap o.colRef o.rowRef ⟨⟨o.A.adj, o.A.op⟩, (0, 0), o.colRef, o.rowRef⟩ with
      | (.error _, _) => s
      | (.ok (), o') => { s with objs := s.objs ++ [o'] }

/-- A program. -/
def SubSys.run (s : SubSys α) (ms : List (SubMove α)) : SubSys α := ms.foldl SubSys.step s

/-! ## Cached properties of KFAC -/

variable {Θ B G : Type}

/-- What a program does with a KFAC operator: call it, or change the tensor that a property returned in place. -/
inductive ShareMove
  | call (c : KCall)
  | overwriteTrace (x : ℝ)
  | overwriteDet (x : ℝ)
  | overwriteLogdet (x : FLog)
  | overwriteFrob (x : ℝ)

/-- Change the tensors in place. `trace`, `det`, `logdet`, `frobenius_norm` return the attributes that cache the values
(`kfac.py:777-778`, `799`, `814-815`, `844`, `860-861`, `890`, `903-904`, `927`). Without layers the values are Python
numbers, which cannot be changed in place. -/
def KState.overwrite (w : KWorld Θ B G) (s : KState Θ) : ShareMove → KState Θ
  | .call _ => s
  | .overwriteTrace x => if w.mapping.isEmpty then s else { s with trace := s.trace.map fun _ => x }
  | .overwriteDet x => if w.mapping.isEmpty then s else { s with det := s.det.map fun _ => x }
  | .overwriteLogdet x => if w.mapping.isEmpty then s else { s with logdet := s.logdet.map fun _ => x }
  | .overwriteFrob x => if w.mapping.isEmpty then s else { s with frob := s.frob.map fun _ => x }

/-- The results of the calls (as in `kStep`, without interruptions), and the final state. -/
noncomputable def shareRun (w : KWorld Θ B G) : List ShareMove → KState Θ → List (Py KValue) × KState Θ
  | [], s => ([], s)
  | .call c :: ms, s =>
    let r := kStep w s none c
    let rest := shareRun w ms r.2
    (r.1 :: rest.1, rest.2)
  | m :: ms, s => shareRun w ms (s.overwrite w m)

end Curvlinops
