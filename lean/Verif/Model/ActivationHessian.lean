import Verif.Model.ActivationHook
import Verif.Model.Curvature

/-!
# Model of the products of `ActivationHessianLinearOperator` (`/repo/curvlinops/experimental/activation_hessian.py`)
-/

namespace Curvlinops

/-- What the operator is built from: the modules of the model, the requested activation, the mini-batch's forward pass
together with the loss evaluation, the identifier of a new list, and, for each tensor of the computation graph, its shape and
the second partial derivatives of the mini-batch loss in it (the trusted meaning of autograd). -/
structure ActivationProblem (T α : Type) where
  model : Submodules
  activation : String × String × Int
  forward : Fwd T
  fresh : Nat
  shape : T → List Nat
  hess : T → Nat → Nat → α

/-- The column loop of `_matmat_batch` (`activation_hessian.py:192-201`) for the activation with the given shape. -/
def activationHessianColumns {α : Type} [NonUnitalNonAssocSemiring α] (shape : List Nat) (H : Nat → Nat → α)
    (M : List (Tensor α)) : Py (List (Tensor α)) :=
  match numVecs M with
  | .error e => .error e
  | .ok K => columnLoop (fun v => hvp H [⟨0, shape⟩] v [⟨0, shape⟩]) M (List.range K) (M.map Tensor.zerosLike)

/-- `_matmat_batch` (`activation_hessian.py:167-201`). Simplification: the world of hooks after the product is not returned
(`withStore_hooks` shows that the hooks are unchanged). -/
def activationHessianMatmatBatch {T α : Type} [NonUnitalNonAssocSemiring α] (pr : ActivationProblem T α) (w : HookWorld T)
    (M : List (Tensor α)) : Py (List (Tensor α)) :=
  match (fetchActivation pr.model pr.activation pr.fresh pr.forward w).1 with
  | .error e => .error e
  | .ok t => activationHessianColumns (pr.shape t) (pr.hess t) M

/-- The operator after its construction with a single mini-batch of `batchSize` data: `_get_out_shape`
(`activation_hessian.py:137-157`) runs a forward pass and stores the shape of the activation; `_get_in_shape` returns the
same (`:159-165`). The forward pass for the shape does not evaluate the loss; it calls the same modules. -/
def activationHessianOp {T α : Type} [DivisionRing α] (pr : ActivationProblem T α) (w : HookWorld T) (red : Reduction)
    (batchSize : Nat) : Py (LinOp α) :=
  match (fetchActivation pr.model pr.activation pr.fresh pr.forward w).1 with
  | .error e => .error e
  | .ok t => .ok
    { inShape := [pr.shape t], outShape := [pr.shape t],
      matmat := fun M => (curvatureMatmat red (inferNData id [batchSize] none) id
        (fun _ => activationHessianMatmatBatch pr w) [batchSize] M, M) }

end Curvlinops
