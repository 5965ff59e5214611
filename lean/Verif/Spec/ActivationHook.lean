import Verif.Model.ActivationHook

/-!
# What `store_activation` should store
-/

namespace Curvlinops

/-- `l[i] = t` with Python's convention for negative indices. -/
def IsAt {T : Type} (l : List T) (i : Int) (t : T) : Prop :=
  ∃ n : Nat, l[n]? = some t ∧ (i = n ∨ i = (n : Int) - l.length ∧ i < 0)

/-- The tensor `t` is input or output number `idx` of a call. -/
def IsRequested {T : Type} (ioType : String) (idx : Int) (inputs : List T) (output : ModOut T) (t : T) : Prop :=
  (ioType = "input" ∧ IsAt inputs idx t) ∨
  (ioType = "output" ∧ ((output = .tensor t ∧ idx = 0) ∨ ∃ ts, output = .tuple ts ∧ IsAt ts idx t))

/-- A completed call of a module: its inputs, and the output that the caller gets. -/
structure ModCall (T : Type) where
  mod : Nat
  inputs : List T
  output : ModOut T

/-- The output after a hook ran, by the documentation of `register_forward_hook`: the hook's result, and the output itself if
that is `None`. Hooks of `store_activation` leave it unchanged. -/
def hookValue {T : Type} (inputs : List T) (out : ModOut T) : FwdHook T → Py (ModOut T)
  | .store io idx _ => (hookSelect io idx inputs out).map fun _ => out
  | .other f => (f inputs out).map fun r => r.getD out

/-- The value returned by the hooks of a module that are already installed. -/
def hooksValue {T : Type} (inputs : List T) : List (Nat × FwdHook T) → ModOut T → Py (ModOut T)
  | [], out => .ok out
  | h :: hs, out => match hookValue inputs out h.2 with
    | .error e => .error e
    | .ok out => hooksValue inputs hs out

/-- What happens without `store_activation`: the outcome, and the completed calls in the order of their completion. -/
def Fwd.eval {T : Type} (hooks : Nat → List (Nat × FwdHook T)) : Fwd T → Py (ModOut T) × List (ModCall T)
  | .ret out => (.ok out, [])
  | .raise e => (.error e, [])
  | .call m inputs body k =>
    match body.eval hooks with
    | (.error e, tr) => (((k (.error e)).eval hooks).1, tr ++ ((k (.error e)).eval hooks).2)
    | (.ok out, tr) => match hooksValue inputs (hooks m) out with
      | .error e => (((k (.error e)).eval hooks).1, tr ++ ((k (.error e)).eval hooks).2)
      | .ok out => (((k (.ok out)).eval hooks).1, tr ++ [⟨m, inputs, out⟩] ++ ((k (.ok out)).eval hooks).2)

/-- The code does not catch exceptions. -/
def Fwd.NoCatch {T : Type} : Fwd T → Prop
  | .ret _ => True
  | .raise _ => True
  | .call _ _ body k => body.NoCatch ∧ (∀ e, k (.error e) = .raise e) ∧ ∀ out, (k (.ok out)).NoCatch

/-- Identifiers of installed hooks have been handed out before. -/
def HookWorld.Ids {T : Type} (w : HookWorld T) : Prop := ∀ m, ∀ h ∈ w.hooks m, h.1 < w.nextId

/-- No installed hook appends to list `d`. -/
def HookWorld.Unused {T : Type} (w : HookWorld T) (d : Nat) : Prop :=
  ∀ m, ∀ h ∈ w.hooks m, ∀ io idx, h.2 ≠ .store io idx d

end Curvlinops
