import Verif.Model.Py
import Verif.Model.CurvatureInit

/-!
# Model of `store_activation` and of the constructor of `ActivationHessianLinearOperator`
(`/repo/curvlinops/experimental/activation_hessian.py`)

Modules are identified by numbers (object identity), lists to which activations are appended as well. `T` is the type of
tensors.
-/

namespace Curvlinops

/-- What a module returns: a tensor or a tuple of tensors. Simplification: other return types are not modelled. -/
inductive ModOut (T : Type)
  | tensor (t : T)
  | tuple (ts : List T)

/-- The code executed inside of the context, usually a forward pass of the model. `call m inputs body k` calls module `m` on
`inputs`; `body` is what the `forward` method of the module then does, and `k` continues with the returned output or the
raised exception (which it may catch). Every terminating program that calls modules unfolds to such a tree. Simplification:
the code does not register or remove hooks itself. -/
inductive Fwd (T : Type)
  | ret (out : ModOut T)
  | raise (e : PyErr)
  | call (mod : Nat) (inputs : List T) (body : Fwd T) (k : Py (ModOut T) → Fwd T)

/-- A forward hook: the one of `store_activation` with its arguments `io_type`, `io_idx` and `destination`, or another one,
which may raise or replace the output. -/
inductive FwdHook (T : Type)
  | store (ioType : String) (idx : Int) (destination : Nat)
  | other (f : List T → ModOut T → Py (Option (ModOut T)))

/-- The forward hooks installed on each module with the identifiers of their handles (`Module._forward_hooks`), the next
unused identifier (`RemovableHandle.next_id`) and the content of the lists. -/
structure HookWorld (T : Type) where
  hooks : Nat → List (Nat × FwdHook T)
  nextId : Nat
  lists : Nat → List T

/-- `l[i]` for a list or tuple: negative indices count from the end. -/
def pyIndex {T : Type} (l : List T) (i : Int) : Py T :=
  if 0 ≤ i then
    match l[i.toNat]? with
    | some t => .ok t
    | none => .error .indexError
  else if (-i).toNat ≤ l.length then
    match l[l.length - (-i).toNat]? with
    | some t => .ok t
    | none => .error .indexError
  else .error .indexError

/-- The tensor that `hook` stores (`activation_hessian.py:302-312`). -/
def hookSelect {T : Type} (ioType : String) (idx : Int) (inputs : List T) (output : ModOut T) : Py T :=
  match output with
  | .tensor t =>
    if ioType = "output" ∧ idx ≠ 0 then .error .valueError
    else if ioType = "input" then pyIndex inputs idx
    else .ok t
  | .tuple ts => if ioType = "input" then pyIndex inputs idx else pyIndex ts idx

/-- A call of a forward hook: `hook` of `store_activation` (`activation_hessian.py:284-314`) appends the tensor and returns
`None`, which leaves the output unchanged. -/
def runHook {T : Type} (h : FwdHook T) (inputs : List T) (output : ModOut T) (lists : Nat → List T) :
    Py (ModOut T) × (Nat → List T) :=
  match h with
  | .store ioType idx d => match hookSelect ioType idx inputs output with
    | .error e => (.error e, lists)
    | .ok t => (.ok output, fun j => if j = d then lists j ++ [t] else lists j)
  | .other f => match f inputs output with
    | .error e => (.error e, lists)
    | .ok none => (.ok output, lists)
    | .ok (some output) => (.ok output, lists)

/-- `Module.__call__` runs the forward hooks in the order in which they were registered. -/
def runHooks {T : Type} (inputs : List T) :
    List (Nat × FwdHook T) → ModOut T → (Nat → List T) → Py (ModOut T) × (Nat → List T)
  | [], output, lists => (.ok output, lists)
  | h :: hs, output, lists => match runHook h.2 inputs output lists with
    | (.error e, lists) => (.error e, lists)
    | (.ok output, lists) => runHooks inputs hs output lists

/-- Executes the code in the context. -/
def Fwd.run {T : Type} : Fwd T → HookWorld T → Py (ModOut T) × HookWorld T
  | .ret out, w => (.ok out, w)
  | .raise e, w => (.error e, w)
  | .call m inputs body k, w =>
    match body.run w with
    | (.error e, w) => (k (.error e)).run w
    | (.ok out, w) => match runHooks inputs (w.hooks m) out w.lists with
      | (r, lists) => (k r).run ⟨w.hooks, w.nextId, lists⟩

/-- The modules of a model: all dotted names that `get_submodule` resolves, with the module they name. A module that is used
at several places has several names. -/
abbrev Submodules := List (String × Nat)

/-- `named_modules()` lists each module once, under its first name. -/
def namedModules : Submodules → List Nat → List (String × Nat)
  | [], _ => []
  | (name, m) :: rest, seen => if m ∈ seen then namedModules rest seen else (name, m) :: namedModules rest (m :: seen)

/-- A `store_activation` object. -/
structure StoreActivation where
  moduleName : String
  ioType : String
  idx : Int
  destination : Nat
  handles : List (Nat × Nat)

/-- `store_activation.__init__` (`activation_hessian.py:213-261`). -/
def storeInit {T : Type} (model : Submodules) (moduleName ioType : String) (idx : Int) (destination : Nat)
    (w : HookWorld T) : Py StoreActivation :=
  if moduleName ∉ (namedModules model []).map Prod.fst then .error .valueError
  else if ¬ (ioType = "input" ∨ ioType = "output") then .error .valueError
  else if w.lists destination ≠ [] then .error .valueError
  else .ok ⟨moduleName, ioType, idx, destination, []⟩

/-- `store_activation.__enter__` (`activation_hessian.py:263-266`): handles are pairs of module and identifier.
`get_submodule` raises `AttributeError` for unknown names. -/
def storeEnter {T : Type} (model : Submodules) (c : StoreActivation) (w : HookWorld T) :
    Py StoreActivation × HookWorld T :=
  match model.lookup c.moduleName with
  | none => (.error .attributeError, w)
  | some m =>
    (.ok { c with handles := c.handles ++ [(m, w.nextId)] },
      { w with
        hooks := fun j => if j = m then w.hooks j ++ [(w.nextId, .store c.ioType c.idx c.destination)] else w.hooks j
        nextId := w.nextId + 1 })

/-- `RemovableHandle.remove`: removes the hook with this identifier if it is still installed. -/
def removeHandle {T : Type} (h : Nat × Nat) (w : HookWorld T) : HookWorld T :=
  { w with hooks := fun j => if j = h.1 then (w.hooks j).filter (fun e => e.1 ≠ h.2) else w.hooks j }

/-- `store_activation.__exit__` (`activation_hessian.py:268-282`). It returns `None`, so exceptions propagate. -/
def storeExit {T : Type} (c : StoreActivation) (w : HookWorld T) : HookWorld T :=
  c.handles.foldl (fun w h => removeHandle h w) w

/-- `with store_activation(model, module_name, io_type, io_idx, destination): p`. -/
def withStore {T : Type} (model : Submodules) (moduleName ioType : String) (idx : Int) (destination : Nat) (p : Fwd T)
    (w : HookWorld T) : Py (ModOut T) × HookWorld T :=
  match storeInit model moduleName ioType idx destination w with
  | .error e => (.error e, w)
  | .ok c => match storeEnter model c w with
    | (.error e, w) => (.error e, w)
    | (.ok c, w) => match p.run w with
      | (r, w) => (r, storeExit c w)

/-- `list.pop()`. -/
def popLast {T : Type} (l : List T) : Py T :=
  match l.getLast? with
  | none => .error .indexError
  | some t => .ok t

/-- The lines that fetch the activation (`activation_hessian.py:148-153`, `182-185`): an empty list, the context, and
`activation_storage.pop()`. `fresh` is the identifier of the new list, `p` the forward pass (with the loss). Returns the
activation. -/
def fetchActivation {T : Type} (model : Submodules) (activation : String × String × Int) (fresh : Nat) (p : Fwd T)
    (w : HookWorld T) : Py T × HookWorld T :=
  let w := { w with lists := fun j => if j = fresh then [] else w.lists j }
  match withStore model activation.1 activation.2.1 activation.2.2 fresh p w with
  | (.error e, w) => (.error e, w)
  | (.ok _, w) => (popLast (w.lists fresh), w)

/-- `next(iterator)` for an iterator that yields the given items. -/
def pyNext {β : Type} : List β → Py (β × List β)
  | [] => .error .stopIteration
  | b :: bs => .ok (b, bs)

/-- The check for a single batch (`activation_hessian.py:120-126`): an iterator, a first `next`, and a second one whose
`StopIteration` is suppressed. Exceptions that the data raise themselves are not modelled. -/
def singleBatchCheck {β : Type} (batches : List β) : Py Unit := do
  let (_, iterator) ← pyNext batches
  match (do
    let _ ← pyNext iterator
    .error .valueError : Py Unit) with
  | .error .stopIteration => .ok ()
  | r => r

/-- The inputs of the mini-batches that the data yield, and whether `iter(data)` returns the same iterator every time (as for
generators) instead of a new one. -/
structure DataSource where
  batches : List FirstInput
  oneShot : Bool

/-- `ActivationHessianLinearOperator.__init__` (`activation_hessian.py:118-135`) with the checks of the base class, which gets
no `batch_size_fn` and no `block_sizes` (`_torch_base.py:463-478`). A one-shot iterator has lost the items that the check for
a single batch took. -/
def activationHessianInit (data : DataSource) (numParams : Nat) : Py (List Int) := do
  singleBatchCheck data.batches
  let rest := if data.oneShot then data.batches.drop 2 else data.batches
  initBlockSizes (rest.headD .noBatch) false false none numParams

end Curvlinops
