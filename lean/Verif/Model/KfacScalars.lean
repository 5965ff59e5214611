import Verif.Model.KfacProduct
import Verif.Spec.MatScalars

/-!
# Model of `KFACLinearOperator.trace`, `det`, `logdet`, `frobenius_norm`

The values of the properties after the factors have been computed (without the caching, which is in
`Model/KfacState.lean`).
-/

namespace Curvlinops

/-- The loop over the mapping that all four properties share (`kfac.py:784-798`, `821-843`, `867-889`, `910-925`):
`joint`, `weight` and `other` update the accumulated value. The gradient covariance is looked up first, the input
covariance only when it is used. -/
def accLoop {γ : Type _} (sep : Bool) (inCov gradCov : Dict (Factor ℝ)) (joint weight : Factor ℝ → Factor ℝ → γ → γ)
    (other : Factor ℝ → γ → γ) : Dict (Dict Nat) → γ → Py γ
  | [], acc => .ok acc
  | (name, pos) :: rest, acc =>
    match gradCov.getE name with
    | .error e => .error e
    | .ok B =>
      if !sep && pos.has "weight" && pos.has "bias" then
        match inCov.getE name with
        | .error e => .error e
        | .ok A => accLoop sep inCov gradCov joint weight other rest (joint A B acc)
      else
        match paramsLoop name B pos acc with
        | .error e => .error e
        | .ok acc' => accLoop sep inCov gradCov joint weight other rest acc'
where
  /-- The inner loop over the layer's parameters. -/
  paramsLoop (name : String) (B : Factor ℝ) : Dict Nat → γ → Py γ
    | [], acc => .ok acc
    | (p, _) :: ps, acc =>
      if p = "weight" then
        match inCov.getE name with
        | .error e => .error e
        | .ok A => paramsLoop name B ps (weight A B acc)
      else paramsLoop name B ps (other B acc)

/-- `Tensor.trace()`. -/
def Factor.trace (F : Factor ℝ) : ℝ := matTrace F.dim F.mat

/-- `Tensor.det()`. -/
noncomputable def Factor.det (F : Factor ℝ) : ℝ := matDet F.dim F.mat

/-- `Tensor.square().sum()`. -/
def Factor.squares (F : Factor ℝ) : ℝ := matSquares F.dim F.mat

/-- `Tensor.logdet()`: `nan` for negative and `-inf` for zero determinants. -/
noncomputable def Factor.logdet (F : Factor ℝ) : FLog := FLog.ofReal F.det

/-- Addition of floating point logarithms. -/
noncomputable def FLog.add : FLog → FLog → FLog
  | .nan, _ => .nan
  | _, .nan => .nan
  | .negInf, _ => .negInf
  | _, .negInf => .negInf
  | .fin x, .fin y => .fin (x + y)

/-- `n * x`: `0 * (-inf)` is `nan`. -/
noncomputable def FLog.smul (n : Nat) : FLog → FLog
  | .nan => .nan
  | .negInf => if n = 0 then .nan else .negInf
  | .fin x => .fin (n * x)

/-- `trace` (`kfac.py:783-799`). -/
def kfacTrace (sep : Bool) (mapping : Dict (Dict Nat)) (inCov gradCov : Dict (Factor ℝ)) : Py ℝ :=
  accLoop sep inCov gradCov (fun A B acc => acc + A.trace * B.trace) (fun A B acc => acc + B.trace * A.trace)
    (fun B acc => acc + B.trace * 1) mapping 0

/-- `det` (`kfac.py:820-844`). -/
noncomputable def kfacDet (sep : Bool) (mapping : Dict (Dict Nat)) (inCov gradCov : Dict (Factor ℝ)) : Py ℝ :=
  accLoop sep inCov gradCov (fun A B acc => acc * (A.det ^ B.dim * B.det ^ A.dim))
    (fun A B acc => acc * (B.det ^ A.dim * A.det ^ B.dim)) (fun B acc => acc * (B.det ^ 1 * 1)) mapping 1

/-- `logdet` (`kfac.py:866-890`). -/
noncomputable def kfacLogdet (sep : Bool) (mapping : Dict (Dict Nat)) (inCov gradCov : Dict (Factor ℝ)) : Py FLog :=
  accLoop sep inCov gradCov (fun A B acc => acc.add ((A.logdet.smul B.dim).add (B.logdet.smul A.dim)))
    (fun A B acc => acc.add ((B.logdet.smul A.dim).add (A.logdet.smul B.dim)))
    (fun B acc => acc.add ((B.logdet.smul 1).add (.fin 0))) mapping (.fin 0)

/-- `frobenius_norm` (`kfac.py:909-927`). If there are no layers, the value is still a Python number, which has no
`sqrt_`. -/
noncomputable def kfacFrobenius (sep : Bool) (mapping : Dict (Dict Nat)) (inCov gradCov : Dict (Factor ℝ)) : Py ℝ :=
  match accLoop sep inCov gradCov (fun A B acc => acc + A.squares * B.squares)
      (fun A B acc => acc + B.squares * A.squares) (fun B acc => acc + B.squares * 1) mapping 0 with
  | .error e => .error e
  | .ok s => if mapping.isEmpty then .error .attributeError else .ok (Real.sqrt s)

end Curvlinops
