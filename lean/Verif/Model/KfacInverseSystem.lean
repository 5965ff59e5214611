import Verif.Model.KfacInverse

/-!
# Model of several KFAC operators and inverses that refer to them

An inverse holds a reference to its KFAC operator (`inverse.py:361`), so calls on the latter act on the former.
-/

namespace Curvlinops

variable {Θ B G : Type}

/-- An inverse: its KFAC operator (by number), its settings, and the reference to its cache. -/
structure InvRec where
  kfac : Nat
  cfg : InvCfg
  ref : Nat

/-- KFAC operators, inverses, and the contents of all dictionaries. -/
structure InvSys (Θ B G : Type) where
  heap : KHeap
  caches : InvHeap
  kfacs : List (KWorld Θ B G × KObj Θ)
  invs : List InvRec

/-- Calls: on a KFAC operator, `load_state_dict` of a KFAC operator, products with an inverse, and `load_state_dict` of an
inverse. -/
inductive InvCall (Θ : Type)
  | kfac (i : Nat) (c : KCall) (fault : Fault)
  | loadKfac (i : Nat) (sd : StateDict Θ)
  | product (j : Nat) (X : List (Tensor ℝ)) (fault : Fault)
  | loadInv (j : Nat) (sd : InvStateDict Θ)

/-- `_matmat` of the inverse `r` (`inverse.py:620-663`) with the present state of its KFAC operator: the result, and the
system afterwards. -/
noncomputable def InvSys.matmat (la : LinAlg) (dt : FloatType) (s : InvSys Θ B G) (r : InvRec) (X : List (Tensor ℝ))
    (fault : Fault) : Option (Py (List (Tensor ℝ))) × InvSys Θ B G :=
  match s.kfacs[r.kfac]? with
  | none => (none, s)
  | some (w, o) =>
    let res := KInvState.matmat w la dt fault X ⟨o.value s.heap, r.cfg, s.caches r.ref⟩
    (some res.1.1, { s with
      heap := Function.update s.heap o.ref (res.2.A.inCov, res.2.A.gradCov)
      caches := Function.update s.caches r.ref res.2.cache
      kfacs := s.kfacs.set r.kfac (w, { o with attrs := res.2.A }) })

/-- The product of inverse `j`; `none` if there is no such inverse. -/
noncomputable def InvSys.product (la : LinAlg) (dt : FloatType) (s : InvSys Θ B G) (j : Nat) (X : List (Tensor ℝ))
    (fault : Fault) : Option (Py (List (Tensor ℝ))) × InvSys Θ B G :=
  match s.invs[j]? with
  | none => (none, s)
  | some r => s.matmat la dt r X fault

/-- One call. -/
noncomputable def InvSys.step (la : LinAlg) (dt : FloatType) (s : InvSys Θ B G) : InvCall Θ → InvSys Θ B G
  | .kfac i c f =>
    match s.kfacs[i]? with
    | none => s
    | some (w, o) =>
      let r := o.call w s.heap c f
      { s with heap := r.2.1, kfacs := s.kfacs.set i (w, r.2.2) }
  | .loadKfac i sd =>
    match s.kfacs[i]? with
    | none => s
    | some (w, o) => { s with kfacs := s.kfacs.set i (w, (o.load w s.heap sd).2) }
  | .product j X f => (s.product la dt j X f).2
  | .loadInv j sd =>
    match s.invs[j]? with
    | none => s
    | some r =>
      match s.kfacs[r.kfac]? with
      | none => s
      | some (w, o) =>
        let l := KInvObj.load w s.heap sd ⟨o, r.cfg, r.ref⟩
        { s with kfacs := s.kfacs.set r.kfac (w, l.2.A), invs := s.invs.set j ⟨r.kfac, l.2.cfg, l.2.ref⟩ }

/-- A sequence of calls. -/
noncomputable def InvSys.run (la : LinAlg) (dt : FloatType) (s : InvSys Θ B G) (cs : List (InvCall Θ)) : InvSys Θ B G :=
  cs.foldl (InvSys.step la dt) s

/-- What a new inverse with the same KFAC operator and settings as inverse `j` would return: its cache, at an unused
reference, is empty (`inverse.py:376-377`). -/
noncomputable def InvSys.newProduct (la : LinAlg) (dt : FloatType) (s : InvSys Θ B G) (j : Nat) (X : List (Tensor ℝ))
    (fault : Fault) : Option (Py (List (Tensor ℝ))) :=
  match s.invs[j]? with
  | none => none
  | some r => (InvSys.matmat la dt { s with caches := fun _ => [] } r X fault).1

end Curvlinops
