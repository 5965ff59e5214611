import Verif.Model.TorchBase
import Verif.Model.KfacMapping
import Mathlib.Algebra.BigOperators.Intervals

/-!
# Model of the product with KFAC (`KFACLinearOperator._matmat`)
-/

namespace Curvlinops

/-- A Kronecker factor: a square matrix. -/
structure Factor (α : Type _) where
  dim : Nat
  mat : Nat → Nat → α

variable {α : Type _} [NonUnitalNonAssocSemiring α]

/-- `einsum(B, t, "j k, k ... v -> j ... v")` (`kfac.py:391`): `RuntimeError` if the sizes of `k`
differ, unless one of them is 1, which torch broadcasts. -/
def mulLeft (B : Factor α) (t : Tensor α) : Py (Tensor α) :=
  match t.shape with
  | [] => .error .runtimeError
  | d :: rest =>
    if d = B.dim then
      .ok ⟨d :: rest, (List.range (d * rest.prod)).map fun n =>
        ∑ k ∈ Finset.range d, B.mat (n / rest.prod) k * t.data.getD (k * rest.prod + n % rest.prod) 0⟩
    else if d = 1 then
      .ok ⟨B.dim :: rest, (List.range (B.dim * rest.prod)).map fun n =>
        ∑ k ∈ Finset.range B.dim, B.mat (n / rest.prod) k * t.data.getD (n % rest.prod) 0⟩
    else if B.dim = 1 then
      .ok ⟨1 :: rest, (List.range rest.prod).map fun n =>
        ∑ k ∈ Finset.range d, B.mat 0 0 * t.data.getD (k * rest.prod + n) 0⟩
    else .error .runtimeError

/-- `rearrange(t, "c_out ... v -> c_out (...) v")` (`kfac.py:369, 384`): needs at least two dimensions. Row-major
entries do not change. -/
def flattenMid (t : Tensor α) : Py (Tensor α) :=
  match t.shape with
  | [] => .error .runtimeError
  | [_] => .error .runtimeError
  | d :: e :: rest => .ok ⟨[d, ((e :: rest).dropLast).prod, (e :: rest).getLastD 0], t.data⟩

/-- `einsum(t, A, "c_out j v, j k -> c_out k v")` (`kfac.py:386`): `RuntimeError` if the sizes of `j` differ, unless one of them is 1, which
torch broadcasts. -/
def mulRight (A : Factor α) (t : Tensor α) : Py (Tensor α) :=
  match t.shape with
  | [c, J, K] =>
    if J = A.dim then
      .ok ⟨[c, J, K], (List.range (c * (J * K))).map fun n =>
        ∑ j ∈ Finset.range J, t.data.getD ((n / (J * K)) * (J * K) + j * K + n % K) 0 *
          A.mat j (n / K % J)⟩
    else if J = 1 then
      .ok ⟨[c, A.dim, K], (List.range (c * (A.dim * K))).map fun n =>
        ∑ j ∈ Finset.range A.dim, t.data.getD ((n / (A.dim * K)) * K + n % K) 0 * A.mat j (n / K % A.dim)⟩
    else if A.dim = 1 then
      .ok ⟨[c, 1, K], (List.range (c * K)).map fun n =>
        ∑ j ∈ Finset.range J, t.data.getD ((n / K) * (J * K) + j * K + n % K) 0 * A.mat 0 0⟩
    else .error .runtimeError
  | _ => .error .runtimeError

/-- `cat([M_w, M_b.unsqueeze(-2)], dim=-2)` (`kfac.py:370`) of tensors of shape `(c, J, K)` and `(c, K)`. -/
def joinBias (w b : Tensor α) : Py (Tensor α) :=
  match w.shape with
  | [c, J, K] =>
    if b.shape = [c, K] then
      .ok ⟨[c, J + 1, K], (List.range (c * ((J + 1) * K))).map fun n =>
        let i := n / ((J + 1) * K)
        let j := n / K % (J + 1)
        if j < J then w.data.getD (i * (J * K) + j * K + n % K) 0 else b.data.getD (i * K + n % K) 0⟩
    else .error .runtimeError
  | _ => .error .runtimeError

/-- `M_joint.split([w_cols, 1], dim=-2)` and `squeeze_(1)` of the second part (`kfac.py:376-377`). -/
def splitBias (J : Nat) (t : Tensor α) : Py (Tensor α × Tensor α) :=
  match t.shape with
  | [c, J', K] =>
    if J' = J + 1 then
      .ok (⟨[c, J, K], (List.range (c * (J * K))).map fun n =>
          t.data.getD ((n / (J * K)) * ((J + 1) * K) + (n / K % J) * K + n % K) 0⟩,
        ⟨[c, K], (List.range (c * K)).map fun n => t.data.getD ((n / K) * ((J + 1) * K) + J * K + n % K) 0⟩)
    else .error .runtimeError
  | _ => .error .runtimeError

/-- `M[pos]` for a list: `IndexError` beyond the end. -/
def listGet {β : Type _} (M : List β) (pos : Nat) : Py β :=
  match M[pos]? with
  | none => .error .indexError
  | some t => .ok t

/-- `d[k]` for a dictionary: `KeyError` for a missing key. -/
def Dict.getE {β : Type _} (d : Dict β) (k : String) : Py β :=
  match d.get k with
  | none => .error .keyError
  | some t => .ok t

/-- Joint treatment of weight and bias (`kfac.py:367-377`, with the restored shape of lines 394-395): the new
values of `KM[w_pos]` and `KM[b_pos]`. The three-way `einsum` of line 373 is modelled as a product from the left
followed by a product from the right. -/
def jointProduct (A B : Factor α) (Mw Mb : Tensor α) : Py (Tensor α × Tensor α) := do
  let w ← flattenMid Mw
  let j ← joinBias w Mb
  let j ← mulLeft B j
  let j ← mulRight A j
  let (w', b') ← splitBias (w.shape.getD 1 0) j
  let w' ← w'.reshape Mw.shape
  .ok (w', b')

/-- Separate treatment of a weight (`kfac.py:384-391`, with lines 394-395). -/
def weightProduct (A B : Factor α) (Mw : Tensor α) : Py (Tensor α) := do
  let w ← flattenMid Mw
  let w ← mulRight A w
  let w ← mulLeft B w
  w.reshape Mw.shape

/-- One iteration of the loop over `self._mapping` (`kfac.py:356-395`): the assignments to entries of `KM`. -/
def layerProduct (sep : Bool) (inCov gradCov : Dict (Factor α)) (M : List (Tensor α)) (name : String)
    (pos : Dict Nat) : Py (List (Nat × Tensor α)) :=
  match sep, pos.get "weight", pos.get "bias" with
  | false, some wp, some bp => do
    let Mw ← listGet M wp
    let Mb ← listGet M bp
    let A ← inCov.getE name
    let B ← gradCov.getE name
    let (w', b') ← jointProduct A B Mw Mb
    .ok [(wp, w'), (bp, b')]
  | _, _, _ =>
    pyMapM (fun e : String × Nat => do
      let m ← listGet M e.2
      let B ← gradCov.getE name
      if e.1 = "weight" then do
        let A ← inCov.getE name
        let w ← weightProduct A B m
        .ok (e.2, w)
      else do
        let b ← mulLeft B m
        .ok (e.2, b)) pos

/-- `KM = [None for m in M]` (`kfac.py:354`) followed by the assignments `KM[pos] = t`. -/
def assignAll {β : Type _} (n : Nat) (ws : List (Nat × β)) : List (Option β) :=
  ws.foldl (fun KM w => KM.set w.1 (some w.2)) (List.replicate n none)

/-- A `None` that is left in `KM` makes the output check of `__matmul__` raise `AttributeError`
(`_torch_base.py:279`). -/
def allSome {β : Type _} : List (Option β) → Py (List β)
  | [] => .ok []
  | none :: _ => .error .attributeError
  | some t :: ts =>
    match allSome ts with
    | .error e => .error e
    | .ok us => .ok (t :: us)

/-- `_matmat` after the factors have been computed (`kfac.py:354-397`). The loop only reads `M` and the factors, so
the assignments are collected first. -/
def kfacMatmat (sep : Bool) (mapping : Dict (Dict Nat)) (inCov gradCov : Dict (Factor α)) (M : List (Tensor α)) :
    Py (List (Tensor α)) := do
  let ws ← pyMapM (fun e : String × Dict Nat => layerProduct sep inCov gradCov M e.1 e.2) mapping
  allSome (assignAll M.length ws.flatten)

/-- The operator: `_matmat` does not assign to its argument list. -/
def kfacOp (shapes : List (List Nat)) (sep : Bool) (mapping : Dict (Dict Nat)) (inCov gradCov : Dict (Factor α)) :
    LinOp α :=
  { inShape := shapes, outShape := shapes, matmat := fun M => (kfacMatmat sep mapping inCov gradCov M, M) }

end Curvlinops
