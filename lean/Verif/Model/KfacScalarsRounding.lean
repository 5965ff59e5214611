import Verif.Model.KfacScalars
import Verif.Model.KfacRounding

/-!
# Model of KFAC's `trace` and `frobenius_norm` in floating point arithmetic

As `Model/KfacScalars.lean`, with factors of floating point numbers and rounded operations; sums inside torch's kernels are in any
order (`FlSum`). Multiplication with the Python number 1 and addition to the Python number 0 are exact, since rounding is
idempotent.
-/

namespace Curvlinops

variable {ρ : Rounding}

/-- The loop over the mapping (`kfac.py:784-798`, `910-925`), as `accLoop`. -/
def accLoopFl {γ : Type _} (sep : Bool) (inCov gradCov : Dict (Factor (Fl ρ))) (joint weight : Factor (Fl ρ) → Factor (Fl ρ) → γ → γ)
    (other : Factor (Fl ρ) → γ → γ) : Dict (Dict Nat) → γ → Py γ
  | [], acc => .ok acc
  | (name, pos) :: rest, acc =>
    match gradCov.getE name with
    | .error e => .error e
    | .ok B =>
      if !sep && pos.has "weight" && pos.has "bias" then
        match inCov.getE name with
        | .error e => .error e
        | .ok A => accLoopFl sep inCov gradCov joint weight other rest (joint A B acc)
      else
        match paramsLoop name B pos acc with
        | .error e => .error e
        | .ok acc' => accLoopFl sep inCov gradCov joint weight other rest acc'
where
  /-- The inner loop over the layer's parameters. -/
  paramsLoop (name : String) (B : Factor (Fl ρ)) : Dict Nat → γ → Py γ
    | [], acc => .ok acc
    | (p, _) :: ps, acc =>
      if p = "weight" then
        match inCov.getE name with
        | .error e => .error e
        | .ok A => paramsLoop name B ps (weight A B acc)
      else paramsLoop name B ps (other B acc)

/-- `Tensor.trace()` (`kfac.py:785`, `791`, `795`). -/
noncomputable def traceFl (σ : FlSum ρ) (F : Factor (Fl ρ)) : Fl ρ := σ.sum ((List.range F.dim).map fun i => F.mat i i)

/-- `Tensor.square().sum()` (`kfac.py:911`, `917`, `922`). -/
noncomputable def squaresFl (σ : FlSum ρ) (F : Factor (Fl ρ)) : Fl ρ :=
  σ.sum ((List.range F.dim).flatMap fun i => (List.range F.dim).map fun j => F.mat i j * F.mat i j)

/-- `trace` (`kfac.py:783-799`). -/
noncomputable def kfacTraceFl (σ : FlSum ρ) (sep : Bool) (mapping : Dict (Dict Nat)) (inCov gradCov : Dict (Factor (Fl ρ))) : Py (Fl ρ) :=
  accLoopFl sep inCov gradCov (fun A B acc => acc + traceFl σ A * traceFl σ B) (fun A B acc => acc + traceFl σ B * traceFl σ A)
    (fun B acc => acc + traceFl σ B * 1) mapping 0

/-- The sum of squares in `frobenius_norm`, before the square root (`kfac.py:909-925`). -/
noncomputable def kfacSquaresFl (σ : FlSum ρ) (sep : Bool) (mapping : Dict (Dict Nat)) (inCov gradCov : Dict (Factor (Fl ρ))) :
    Py (Fl ρ) :=
  accLoopFl sep inCov gradCov (fun A B acc => acc + squaresFl σ A * squaresFl σ B)
    (fun A B acc => acc + squaresFl σ B * squaresFl σ A) (fun B acc => acc + squaresFl σ B * 1) mapping 0

/-- `frobenius_norm` (`kfac.py:909-927`): `sqrt_` is correctly rounded; `none` is `nan`, for negative numbers. -/
noncomputable def kfacFrobeniusFl (σ : FlSum ρ) (sep : Bool) (mapping : Dict (Dict Nat)) (inCov gradCov : Dict (Factor (Fl ρ))) :
    Py (Option (Fl ρ)) :=
  match kfacSquaresFl σ sep mapping inCov gradCov with
  | .error e => .error e
  | .ok s =>
    if mapping.isEmpty then .error .attributeError
    else open Classical in if s.val < 0 then .ok none else .ok (some (Fl.of ρ (Real.sqrt s.val)))

end Curvlinops
