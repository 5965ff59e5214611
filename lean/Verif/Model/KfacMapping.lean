import Verif.Model.Py
import Mathlib.Data.List.Dedup

/-!
# Model of Python dictionaries and of `KFACLinearOperator.compute_parameter_mapping`
-/

namespace Curvlinops

/-- A Python dictionary with string keys, in insertion order. -/
abbrev Dict (β : Type _) := List (String × β)

namespace Dict

variable {β : Type _}

/-- `d.get(k)`. -/
def get (d : Dict β) (k : String) : Option β := List.lookup k d

/-- `k in d`. -/
def has (d : Dict β) (k : String) : Bool := d.any fun e => e.1 == k

/-- `d[k] = v`: a key that is present keeps its place. -/
def set : Dict β → String → β → Dict β
  | [], k, v => [(k, v)]
  | (k', v') :: d, k, v => if k' = k then (k, v) :: d else (k', v') :: Dict.set d k v

/-- `d.keys()`. -/
def keys (d : Dict β) : List String := d.map Prod.fst

end Dict

/-- An entry of `model_func.named_modules()`: the name, whether the module is an instance of `_SUPPORTED_MODULES`
(`Linear` or `Conv2d`), and its `named_parameters()` with their data pointers. -/
structure Mod where
  name : String
  supported : Bool
  params : List (String × Nat)

/-- The inner loop of `compute_parameter_mapping` (`kfac.py:751-756`): positions of the module's parameters and the
pointers that were found. -/
def paramLoop (ids : List Nat) : List (String × Nat) → Dict Nat → List Nat → Dict Nat × List Nat
  | [], pos, proc => (pos, proc)
  | (name, id) :: ps, pos, proc =>
    if id ∈ ids then paramLoop ids ps (pos.set name (ids.idxOf id)) (proc ++ [id])
    else paramLoop ids ps pos proc

/-- The outer loop (`kfac.py:746-757`). -/
def moduleLoop (ids : List Nat) : List Mod → Dict (Dict Nat) → List Nat → Dict (Dict Nat) × List Nat
  | [], positions, proc => (positions, proc)
  | m :: ms, positions, proc =>
    if m.supported && m.params.any (fun p => decide (p.2 ∈ ids)) then
      let r := paramLoop ids m.params [] proc
      moduleLoop ids ms (positions.set m.name r.1) r.2
    else moduleLoop ids ms positions proc

/-- `compute_parameter_mapping` (`kfac.py:724-763`). `processed` is a set, so only the number of different pointers
counts. -/
def computeMapping (ids : List Nat) (mods : List Mod) : Py (Dict (Dict Nat)) :=
  let r := moduleLoop ids mods [] []
  if r.2.dedup.length ≠ ids.length then .error .notImplementedError else .ok r.1

end Curvlinops
