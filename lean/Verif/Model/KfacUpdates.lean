import Verif.Model.KfacState

/-!
# Model of KFAC operators whose model is changed between the calls

The parameters are changed in place by somebody else, e.g. by an optimizer. The operator holds the model by reference
(`_torch_base.py:468`, `480`), so `KState.model` changes with it; nothing informs the operator.
-/

namespace Curvlinops

variable {Θ B G : Type}

/-- Something that happens to an operator. -/
inductive KMove (Θ : Type)
  | update (θ : Θ)
  | call (c : KCall)

/-- The results of the calls, and the final state. Calls as in `kStep` (`kfac.py:335-440`, `765-927`), without
interruptions. -/
noncomputable def moveRun (w : KWorld Θ B G) : List (KMove Θ) → KState Θ → List (Py KValue) × KState Θ
  | [], s => ([], s)
  | .update θ :: ms, s => moveRun w ms { s with model := θ }
  | .call c :: ms, s =>
    let r := kStep w s none c
    let rest := moveRun w ms r.2
    (r.1 :: rest.1, rest.2)

end Curvlinops
