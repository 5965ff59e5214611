import Verif.Model.KfacStateDict

/-!
# Model of `KFACInverseLinearOperator` (`/repo/curvlinops/inverse.py:296-728`)

PyTorch's decompositions are abstract routines (`LinAlg`); what is assumed about them is in `Spec/LinAlg.lean`. Values
are real numbers, so a conversion between precisions keeps the value; the precision in which a decomposition is tried
is visible.
-/

namespace Curvlinops

/-- `float64`, or another data type. -/
inductive FloatType
  | float64
  | lower
  deriving DecidableEq

/-- An eigendecomposition: eigenvectors (columns) and eigenvalues. -/
structure Eigen where
  dim : Nat
  vecs : Nat → Nat → ℝ
  vals : Nat → ℝ

/-- The eigenvectors as a matrix. -/
def Eigen.Q (e : Eigen) : Factor ℝ := ⟨e.dim, e.vecs⟩

/-- Their transpose. -/
def Eigen.Qt (e : Eigen) : Factor ℝ := ⟨e.dim, fun i j => e.vecs j i⟩

/-- The routines of PyTorch that are used: `torch.linalg.cholesky` on a finite matrix and on a matrix with non-finite
entries, `torch.cholesky_inverse`, `torch.linalg.eigh`. -/
structure LinAlg where
  cholesky : FloatType → Factor ℝ → Py (Factor ℝ)
  choleskyNonFinite : FloatType → Py (Factor ℝ)
  choleskyInverse : Factor ℝ → Factor ℝ
  eigh : Factor ℝ → Py Eigen

/-- The `damping` argument: a number or a tuple. -/
inductive Damping
  | value (d : ℝ)
  | pair (a g : ℝ)

/-- Damping values after computation with floating point numbers. -/
inductive FNum
  | fin (x : ℝ)
  | inf
  | nan

/-- The settings (`inverse.py:370-375`). -/
structure InvCfg where
  damping : Damping
  heuristic : Bool
  minDamping : ℝ
  exact : Bool
  cache : Bool
  retry : Bool

/-- Is the damping a tuple? -/
def Damping.isTuple : Damping → Bool
  | .value _ => false
  | .pair _ _ => true

/-- Quotient `x / y` of non-negative floating point numbers. -/
noncomputable def FNum.div (x y : ℝ) : FNum :=
  if y = 0 then (if x = 0 then .nan else .inf) else .fin (x / y)

/-- Python's `max(x, m)`: `m` if `m > x`, else `x`. -/
noncomputable def FNum.pyMax (x : FNum) (m : ℝ) : FNum :=
  match x with
  | .fin x => if m > x then .fin m else .fin x
  | .inf => .inf
  | .nan => .nan

/-- `self._damping` as a pair (`inverse.py:402-405`). -/
def Damping.both : Damping → FNum × FNum
  | .value d => (.fin d, .fin d)
  | .pair a g => (.fin a, .fin g)

/-- `_compute_damping` (`inverse.py:379-405`). The mean of an empty matrix is `nan`, for which the comparisons fail.
`math.sqrt` raises `ValueError` for negative numbers and `TypeError` for a tuple. -/
noncomputable def computeDamping (cfg : InvCfg) (aaT ggT : Option (Factor ℝ)) : Py (FNum × FNum) :=
  match cfg.heuristic, aaT, ggT with
  | true, some A, some B =>
    let meanA := A.trace / A.dim
    let meanB := B.trace / B.dim
    if A.dim ≠ 0 ∧ B.dim ≠ 0 ∧ meanA ≥ 0 ∧ meanB > 0 then
      let ratio := Real.sqrt (meanA / meanB)
      match cfg.damping with
      | .pair _ _ => .error .typeError
      | .value d =>
        if d < 0 then .error .valueError
        else
          let r := Real.sqrt d
          .ok ((FNum.fin (r * ratio)).pyMax cfg.minDamping, (FNum.div r ratio).pyMax cfg.minDamping)
    else .ok cfg.damping.both
  | _, _, _ => .ok cfg.damping.both

/-- `M.add(eye(...), alpha=damping)`. -/
def Factor.addDiag (M : Factor ℝ) (d : ℝ) : Factor ℝ := ⟨M.dim, fun i j => M.mat i j + if i = j then d else 0⟩

/-- `_damped_cholesky` (`inverse.py:407-419`), for a matrix of data type `dt`. -/
def dampedCholesky (la : LinAlg) (dt : FloatType) (M : Factor ℝ) : FNum → Py (Factor ℝ)
  | .fin d => la.cholesky dt (M.addDiag d)
  | .inf => la.choleskyNonFinite dt
  | .nan => la.choleskyNonFinite dt

/-- The inversion of one factor (`inverse.py:448-467` and `469-488`), and the data types of the decompositions that were
tried. `runtimeError` includes the sub-class that PyTorch raises. -/
def invertFactor (la : LinAlg) (retry : Bool) (dt : FloatType) (M : Factor ℝ) (d : FNum) : Py (Factor ℝ) × List FloatType :=
  match dampedCholesky la dt M d with
  | .ok L => (.ok (la.choleskyInverse L), [dt])
  | .error .runtimeError =>
    if retry && dt ≠ .float64 then
      match dampedCholesky la .float64 M d with
      | .ok L => (.ok (la.choleskyInverse L), [dt, .float64])
      | .error e => (.error e, [dt, .float64])
    else (.error .runtimeError, [dt])
  | .error e => (.error e, [dt])

/-- What is computed and cached for a layer. `none` is Python's `None`. The two dictionaries of the class are always
written together (`inverse.py:514-516`), so they are modelled as one dictionary of pairs. -/
inductive KInv
  | inverses (A B : Option (Factor ℝ))
  | eigens (A B : Option Eigen)

/-- `None if M is None else f(M)`. -/
def optM {β γ : Type _} (f : β → Py γ) : Option β → Py (Option γ)
  | none => .ok none
  | some M =>
    match f M with
    | .ok x => .ok (some x)
    | .error e => .error e

/-- `_compute_inverse_factors` (`inverse.py:421-490`). -/
noncomputable def computeInverseFactors (la : LinAlg) (cfg : InvCfg) (dt : FloatType) (aaT ggT : Option (Factor ℝ)) : Py KInv :=
  if cfg.exact then do
    let a ← optM la.eigh aaT
    let g ← optM la.eigh ggT
    .ok (.eigens a g)
  else do
    let (da, dg) ← computeDamping cfg aaT ggT
    let a ← optM (fun M => (invertFactor la cfg.retry dt M da).1) aaT
    let g ← optM (fun M => (invertFactor la cfg.retry dt M dg).1) ggT
    .ok (.inverses a g)

/-- `_compute_or_get_cached_inverse` (`inverse.py:492-518`). -/
noncomputable def computeOrGet (la : LinAlg) (cfg : InvCfg) (dt : FloatType) (inCov gradCov : Dict (Factor ℝ)) (cache : Dict KInv)
    (name : String) : Py KInv × Dict KInv :=
  match cache.get name with
  | some inv => (.ok inv, cache)
  | none =>
    match computeInverseFactors la cfg dt (inCov.get name) (gradCov.get name) with
    | .error e => (.error e, cache)
    | .ok inv => (.ok inv, if cfg.cache then cache.set name inv else cache)

/-- `einsum(X, outer(vB, vA).add_(damping).pow_(-1), "j l m, j l -> j l m")` (`inverse.py:544-548`, `604-608`). `outer`
makes a new tensor, the eigenvalues are not written to. -/
noncomputable def scaleJoint (eA eB : Eigen) (δ : ℝ) (t : Tensor ℝ) : Py (Tensor ℝ) :=
  match t.shape with
  | [I, J, K] =>
    if I = eB.dim ∧ J = eA.dim then
      .ok ⟨[I, J, K], (List.range (I * (J * K))).map fun n =>
        t.data.getD n 0 * (eB.vals (n / (J * K)) * eA.vals (n / K % J) + δ)⁻¹⟩
    else .error .runtimeError
  | _ => .error .runtimeError

/-- `einsum(X, vB.add(damping).pow_(-1), "j ... m, j -> j ... m")` (`inverse.py:611-615`). `add` makes a new tensor. -/
noncomputable def scaleRows (eB : Eigen) (δ : ℝ) (t : Tensor ℝ) : Py (Tensor ℝ) :=
  match t.shape with
  | [] => .error .runtimeError
  | d :: rest =>
    if d = eB.dim then
      .ok ⟨d :: rest, (List.range (d * rest.prod)).map fun n => t.data.getD n 0 * (eB.vals (n / rest.prod) + δ)⁻¹⟩
    else .error .runtimeError

/-- The damping as a number (`inverse.py:546`, `606`, `613`); adding a tuple to a tensor raises `TypeError`. -/
def Damping.number : Damping → Py ℝ
  | .value d => .ok d
  | .pair _ _ => .error .typeError

/-- Joint treatment with exact damping (`inverse.py:534-552`, `647-653`, `661`). -/
noncomputable def exactJoint (δ : ℝ) (eA eB : Eigen) (Xw Xb : Tensor ℝ) : Py (Tensor ℝ × Tensor ℝ) := do
  let w ← flattenMid Xw
  let j ← joinBias w Xb
  let j ← mulLeft eB.Qt j
  let j ← mulRight eA.Q j
  let j ← scaleJoint eA eB δ j
  let j ← mulLeft eB.Q j
  let j ← mulRight eA.Qt j
  let (w', b') ← splitBias (w.shape.getD 1 0) j
  let w' ← w'.reshape Xw.shape
  .ok (w', b')

/-- Separate treatment of a weight with exact damping (`inverse.py:582-616`, `661`). -/
noncomputable def exactWeight (δ : ℝ) (eA eB : Eigen) (Xw : Tensor ℝ) : Py (Tensor ℝ) := do
  let w ← flattenMid Xw
  let w ← mulRight eA.Q w
  let w ← mulLeft eB.Qt w
  let w ← scaleJoint eA eB δ w
  let w ← mulRight eA.Qt w
  let w ← mulLeft eB.Q w
  w.reshape Xw.shape

/-- A bias with exact damping (`inverse.py:588-616`). -/
noncomputable def exactBias (δ : ℝ) (eB : Eigen) (Xb : Tensor ℝ) : Py (Tensor ℝ) := do
  let b ← mulLeft eB.Qt Xb
  let b ← scaleRows eB δ b
  mulLeft eB.Q b

/-- `None` in a product makes `einsum` raise. Simplification: always `RuntimeError` (from `einops` if `None` is its first array; for
the others the class depends on the installed PyTorch). -/
def needTensor {β : Type _} : Option β → Py β
  | none => .error .runtimeError
  | some x => .ok x

/-- The product of a jointly treated weight and bias (`inverse.py:641-653`, `661`). The settings and the kind of cached
values always agree, otherwise unpacking raises. -/
noncomputable def invJoint (cfg : InvCfg) (inv : KInv) (Xw Xb : Tensor ℝ) : Py (Tensor ℝ × Tensor ℝ) :=
  match cfg.exact, inv with
  | true, .eigens a g => do
    let eB ← needTensor g
    let eA ← needTensor a
    let δ ← cfg.damping.number
    exactJoint δ eA eB Xw Xb
  | false, .inverses a g => do
    let B ← needTensor g
    let A ← needTensor a
    jointProduct A B Xw Xb
  | _, _ => .error .typeError

/-- The product of a separately treated weight (`inverse.py:582-616`, `661`). -/
noncomputable def invWeight (cfg : InvCfg) (inv : KInv) (Xw : Tensor ℝ) : Py (Tensor ℝ) :=
  match cfg.exact, inv with
  | true, .eigens a g => do
    let eA ← needTensor a
    let eB ← needTensor g
    let δ ← cfg.damping.number
    exactWeight δ eA eB Xw
  | false, .inverses a g => do
    let A ← needTensor a
    let B ← needTensor g
    weightProduct A B Xw
  | _, _ => .error .typeError

/-- The product of a bias (`inverse.py:588-616`). -/
noncomputable def invBias (cfg : InvCfg) (inv : KInv) (Xb : Tensor ℝ) : Py (Tensor ℝ) :=
  match cfg.exact, inv with
  | true, .eigens _ g => do
    let eB ← needTensor g
    let δ ← cfg.damping.number
    exactBias δ eB Xb
  | false, .inverses _ g => do
    let B ← needTensor g
    mulLeft B Xb
  | _, _ => .error .typeError

/-- The assignments to `X` in one iteration of the loop over the layers (`inverse.py:634-661`). -/
noncomputable def invLayer (cfg : InvCfg) (sep : Bool) (inv : KInv) (X : List (Tensor ℝ)) (pos : Dict Nat) :
    Py (List (Nat × Tensor ℝ)) :=
  match sep, pos.get "weight", pos.get "bias" with
  | false, some wp, some bp => do
    let Xw ← listGet X wp
    let Xb ← listGet X bp
    let (w', b') ← invJoint cfg inv Xw Xb
    .ok [(wp, w'), (bp, b')]
  | _, _, _ =>
    pyMapM (fun e : String × Nat => do
      let x ← listGet X e.2
      let y ← if e.1 = "weight" then invWeight cfg inv x else invBias cfg inv x
      .ok (e.2, y)) pos

/-- `X[pos] = t` for all assignments. -/
def setAll {β : Type _} (X : List β) (ws : List (Nat × β)) : List β := ws.foldl (fun X w => X.set w.1 w.2) X

/-- The loop over the layers (`inverse.py:634-661`): outcome, contents of the list `X`, cache. `X` is overwritten. (If a
layer raises, assignments of this layer to `X` are not modelled.) -/
noncomputable def invLoop (la : LinAlg) (cfg : InvCfg) (dt : FloatType) (sep : Bool) (inCov gradCov : Dict (Factor ℝ)) :
    Dict (Dict Nat) → List (Tensor ℝ) → Dict KInv → Py Unit × List (Tensor ℝ) × Dict KInv
  | [], X, cache => (.ok (), X, cache)
  | (name, pos) :: rest, X, cache =>
    match computeOrGet la cfg dt inCov gradCov cache name with
    | (.error e, cache) => (.error e, X, cache)
    | (.ok inv, cache) =>
      match invLayer cfg sep inv X pos with
      | .error e => (.error e, X, cache)
      | .ok ws => invLoop la cfg dt sep inCov gradCov rest (setAll X ws) cache

/-- The operator object: KFAC and its state, settings, cache. -/
structure KInvState (Θ : Type) where
  A : KState Θ
  cfg : InvCfg
  cache : Dict KInv

variable {Θ B G : Type}

/-- `__init__` (`inverse.py:305-377`). -/
def kInvInit (isKfac : Bool) (A : KState Θ) (cfg : InvCfg) : Py (KInvState Θ) :=
  if !isKfac then .error .valueError
  else if cfg.heuristic && cfg.exact then .error .valueError
  else if (cfg.heuristic || cfg.exact) && cfg.damping.isTuple then .error .valueError
  else .ok ⟨A, cfg, []⟩

/-- `_matmat` (`inverse.py:620-663`): outcome, contents of the argument list, new state. The returned list is the
argument list. -/
noncomputable def KInvState.matmat (w : KWorld Θ B G) (la : LinAlg) (dt : FloatType) (fault : Fault) (X : List (Tensor ℝ))
    (st : KInvState Θ) : (Py (List (Tensor ℝ)) × List (Tensor ℝ)) × KInvState Θ :=
  match ensureKfac w fault st.A with
  | (.error e, A) => ((.error e, X), { st with A := A })
  | (.ok (), A) =>
    match invLoop la st.cfg dt A.cfg.sep A.inCov A.gradCov w.mapping X st.cache with
    | (.error e, X, cache) => ((.error e, X), { st with A := A, cache := cache })
    | (.ok (), X, cache) => ((.ok X, X), { st with A := A, cache := cache })

/-- The operator for `@`, in a given state. -/
noncomputable def KInvState.op (w : KWorld Θ B G) (la : LinAlg) (dt : FloatType) (shapes : List (List Nat)) (st : KInvState Θ) :
    LinOp ℝ :=
  { inShape := shapes, outShape := shapes, matmat := fun X => (st.matmat w la dt none X).1 }

/-- A sequence of products. -/
noncomputable def KInvState.run (w : KWorld Θ B G) (la : LinAlg) (dt : FloatType) :
    List (List (Tensor ℝ)) → KInvState Θ → List (Py (List (Tensor ℝ))) × KInvState Θ
  | [], st => ([], st)
  | X :: Xs, st =>
    let r := st.matmat w la dt none X
    let rest := KInvState.run w la dt Xs r.2
    (r.1.1 :: rest.1, rest.2)

/-! ## State dictionaries -/

/-- The contents of the caches, by reference. The two dictionaries of inverses are always handed on together
(`inverse.py:681-682`, `702-703`). -/
abbrev InvHeap := Nat → Dict KInv

/-- An operator object: the KFAC object, the settings and the reference to its cache. -/
structure KInvObj (Θ : Type) where
  A : KObj Θ
  cfg : InvCfg
  ref : Nat

/-- The state of the operator, with the present contents of the dictionaries. -/
def KInvObj.value (heap : KHeap) (ih : InvHeap) (o : KInvObj Θ) : KInvState Θ := ⟨o.A.value heap, o.cfg, ih o.ref⟩

/-- The returned dictionary (`inverse.py:671-683`). -/
structure InvStateDict (Θ : Type) where
  A : StateDict Θ
  damping : Damping
  heuristic : Bool
  minDamping : ℝ
  exact : Bool
  cache : Bool
  retry : Bool
  ref : Nat

/-- `state_dict` (`inverse.py:665-683`). -/
def KInvObj.stateDict (o : KInvObj Θ) : InvStateDict Θ where
  A := o.A.stateDict
  damping := o.cfg.damping
  heuristic := o.cfg.heuristic
  minDamping := o.cfg.minDamping
  exact := o.cfg.exact
  cache := o.cfg.cache
  retry := o.cfg.retry
  ref := o.ref

/-- `load_state_dict` (`inverse.py:685-703`): the state of KFAC is loaded first. -/
def KInvObj.load (w : KWorld Θ B G) (heap : KHeap) (sd : InvStateDict Θ) (o : KInvObj Θ) : Py Unit × KInvObj Θ :=
  match o.A.load w heap sd.A with
  | (.error e, A) => (.error e, { o with A := A })
  | (.ok (), A) =>
    (.ok (), ⟨A, ⟨sd.damping, sd.heuristic, sd.minDamping, sd.exact, sd.cache, sd.retry⟩, sd.ref⟩)

/-- `from_state_dict` (`inverse.py:705-728`): the constructor with the stored settings for the given KFAC operator, and
an empty cache with the reference `ref`, then `load_state_dict`. -/
def invFromStateDict (w : KWorld Θ B G) (heap : KHeap) (sd : InvStateDict Θ) (A : KObj Θ) (ref : Nat) :
    Py Unit × Option (KInvObj Θ) :=
  match kInvInit true (A.value heap) ⟨sd.damping, sd.heuristic, sd.minDamping, sd.exact, sd.cache, sd.retry⟩ with
  | .error e => (.error e, none)
  | .ok st =>
    let r := KInvObj.load w heap sd ⟨A, st.cfg, ref⟩
    (r.1, some r.2)

end Curvlinops
