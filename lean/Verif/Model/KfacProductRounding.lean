import Verif.Model.KfacRounding

/-!
# Model of the product with KFAC in floating point arithmetic

`_matmat` of `Model/KfacProduct.lean` with rounded operations. Simplifications: those of `Model/Rounding.lean` and of
`Model/KfacProduct.lean`; the three-way `einsum` contracts from the left to the right and rounds the intermediate tensor.
-/

namespace Curvlinops

variable {ρ : Rounding}

/-- `einsum(B, t, "j k, k ... v -> j ... v")` (`kfac.py:391`): rounded products, and a sum (cf. `mulLeft`). -/
noncomputable def mulLeftFl (σ : FlSum ρ) (B : Factor (Fl ρ)) (t : Tensor (Fl ρ)) : Py (Tensor (Fl ρ)) :=
  match t.shape with
  | [] => .error .runtimeError
  | d :: rest =>
    if d = B.dim then
      .ok ⟨d :: rest, (List.range (d * rest.prod)).map fun n => σ.sum ((List.range d).map fun k =>
        B.mat (n / rest.prod) k * t.data.getD (k * rest.prod + n % rest.prod) 0)⟩
    else if d = 1 then
      .ok ⟨B.dim :: rest, (List.range (B.dim * rest.prod)).map fun n => σ.sum ((List.range B.dim).map fun k =>
        B.mat (n / rest.prod) k * t.data.getD (n % rest.prod) 0)⟩
    else if B.dim = 1 then
      .ok ⟨1 :: rest, (List.range rest.prod).map fun n => σ.sum ((List.range d).map fun k =>
        B.mat 0 0 * t.data.getD (k * rest.prod + n) 0)⟩
    else .error .runtimeError

/-- `rearrange(t, "c_out ... v -> c_out (...) v")` (`kfac.py:369, 384`): nothing is rounded (cf. `flattenMid`). -/
def flattenMidFl (t : Tensor (Fl ρ)) : Py (Tensor (Fl ρ)) :=
  match t.shape with
  | [] => .error .runtimeError
  | [_] => .error .runtimeError
  | d :: e :: rest => .ok ⟨[d, ((e :: rest).dropLast).prod, (e :: rest).getLastD 0], t.data⟩

/-- `einsum(t, A, "c_out j v, j k -> c_out k v")` (`kfac.py:386`): rounded products, and a sum (cf. `mulRight`). -/
noncomputable def mulRightFl (σ : FlSum ρ) (A : Factor (Fl ρ)) (t : Tensor (Fl ρ)) : Py (Tensor (Fl ρ)) :=
  match t.shape with
  | [c, J, K] =>
    if J = A.dim then
      .ok ⟨[c, J, K], (List.range (c * (J * K))).map fun n => σ.sum ((List.range J).map fun j =>
        t.data.getD ((n / (J * K)) * (J * K) + j * K + n % K) 0 * A.mat j (n / K % J))⟩
    else if J = 1 then
      .ok ⟨[c, A.dim, K], (List.range (c * (A.dim * K))).map fun n => σ.sum ((List.range A.dim).map fun j =>
        t.data.getD ((n / (A.dim * K)) * K + n % K) 0 * A.mat j (n / K % A.dim))⟩
    else if A.dim = 1 then
      .ok ⟨[c, 1, K], (List.range (c * K)).map fun n => σ.sum ((List.range J).map fun j =>
        t.data.getD ((n / K) * (J * K) + j * K + n % K) 0 * A.mat 0 0)⟩
    else .error .runtimeError
  | _ => .error .runtimeError

/-- `cat([M_w, M_b.unsqueeze(-2)], dim=-2)` (`kfac.py:370`): nothing is rounded (cf. `joinBias`). -/
noncomputable def joinBiasFl (w b : Tensor (Fl ρ)) : Py (Tensor (Fl ρ)) :=
  match w.shape with
  | [c, J, K] =>
    if b.shape = [c, K] then
      .ok ⟨[c, J + 1, K], (List.range (c * ((J + 1) * K))).map fun n =>
        let i := n / ((J + 1) * K)
        let j := n / K % (J + 1)
        if j < J then w.data.getD (i * (J * K) + j * K + n % K) 0 else b.data.getD (i * K + n % K) 0⟩
    else .error .runtimeError
  | _ => .error .runtimeError

/-- `M_joint.split([w_cols, 1], dim=-2)` and `squeeze_(1)` (`kfac.py:376-377`): nothing is rounded (cf. `splitBias`). -/
noncomputable def splitBiasFl (J : Nat) (t : Tensor (Fl ρ)) : Py (Tensor (Fl ρ) × Tensor (Fl ρ)) :=
  match t.shape with
  | [c, J', K] =>
    if J' = J + 1 then
      .ok (⟨[c, J, K], (List.range (c * (J * K))).map fun n =>
          t.data.getD ((n / (J * K)) * ((J + 1) * K) + (n / K % J) * K + n % K) 0⟩,
        ⟨[c, K], (List.range (c * K)).map fun n => t.data.getD ((n / K) * ((J + 1) * K) + J * K + n % K) 0⟩)
    else .error .runtimeError
  | _ => .error .runtimeError

/-- Joint treatment of weight and bias (`kfac.py:367-377`, `394-395`). -/
noncomputable def jointProductFl (σ : FlSum ρ) (A B : Factor (Fl ρ)) (Mw Mb : Tensor (Fl ρ)) :
    Py (Tensor (Fl ρ) × Tensor (Fl ρ)) := do
  let w ← flattenMidFl Mw
  let j ← joinBiasFl w Mb
  let j ← mulLeftFl σ B j
  let j ← mulRightFl σ A j
  let (w', b') ← splitBiasFl (w.shape.getD 1 0) j
  let w' ← w'.reshape Mw.shape
  .ok (w', b')

/-- Separate treatment of a weight (`kfac.py:384-391`, `394-395`). -/
noncomputable def weightProductFl (σ : FlSum ρ) (A B : Factor (Fl ρ)) (Mw : Tensor (Fl ρ)) : Py (Tensor (Fl ρ)) := do
  let w ← flattenMidFl Mw
  let w ← mulRightFl σ A w
  let w ← mulLeftFl σ B w
  w.reshape Mw.shape

/-- One iteration of the loop over `self._mapping` (`kfac.py:356-395`). -/
noncomputable def layerProductFl (σ : FlSum ρ) (sep : Bool) (inCov gradCov : Dict (Factor (Fl ρ))) (M : List (Tensor (Fl ρ)))
    (name : String) (pos : Dict Nat) : Py (List (Nat × Tensor (Fl ρ))) :=
  match sep, pos.get "weight", pos.get "bias" with
  | false, some wp, some bp => do
    let Mw ← listGet M wp
    let Mb ← listGet M bp
    let A ← inCov.getE name
    let B ← gradCov.getE name
    let (w', b') ← jointProductFl σ A B Mw Mb
    .ok [(wp, w'), (bp, b')]
  | _, _, _ =>
    pyMapM (fun e : String × Nat => do
      let m ← listGet M e.2
      let B ← gradCov.getE name
      if e.1 = "weight" then do
        let A ← inCov.getE name
        let w ← weightProductFl σ A B m
        .ok (e.2, w)
      else do
        let b ← mulLeftFl σ B m
        .ok (e.2, b)) pos

/-- `_matmat` after the factors have been computed (`kfac.py:354-397`). -/
noncomputable def kfacMatmatFl (σ : FlSum ρ) (sep : Bool) (mapping : Dict (Dict Nat)) (inCov gradCov : Dict (Factor (Fl ρ)))
    (M : List (Tensor (Fl ρ))) : Py (List (Tensor (Fl ρ))) := do
  let ws ← pyMapM (fun e : String × Dict Nat => layerProductFl σ sep inCov gradCov M e.1 e.2) mapping
  allSome (assignAll M.length ws.flatten)

end Curvlinops
