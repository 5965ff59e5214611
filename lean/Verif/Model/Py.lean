/-!
# Python-level conventions

Exceptions are values. `PyErr` lists the exception classes that the modelled code can raise, either
explicitly (`raise ...` in `/repo/curvlinops`) or through the Python/torch primitives it calls.
Messages are not modelled.
-/

namespace Curvlinops

/-- Exception classes that occur in the modelled code. Simplification: messages are dropped. -/
inductive PyErr
  | valueError
  | runtimeError
  | notImplementedError
  | indexError
  | keyError
  | typeError
  | zeroDivisionError
  | stopIteration
  | attributeError
  | linAlgError
  | unboundLocalError
  deriving DecidableEq, Repr

/-- `Except PyErr` is the type of outcomes of a call without visible side effects. -/
abbrev Py (α : Type _) := Except PyErr α

/-- Run a list of fallible computations in order and collect their results (a Python list
comprehension whose element expression may raise). The first exception wins. -/
def pyMapM {α β : Type _} (f : α → Py β) : List α → Py (List β)
  | [] => .ok []
  | a :: as =>
    match f a with
    | .error e => .error e
    | .ok b =>
      match pyMapM f as with
      | .error e => .error e
      | .ok bs => .ok (b :: bs)

end Curvlinops
