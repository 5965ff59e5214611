import Verif.Model.ActivationHessian
import Verif.Props.ActivationHook
import Verif.Props.Curvature
import Mathlib.Tactic.NormNum

/-!
# C67: the activation Hessian multiplies with the Hessian in the requested activation
-/

namespace Curvlinops

variable {T α : Type}

theorem activationHessianColumns_represents [NonUnitalNonAssocSemiring α] (shape : List Nat) (H : Mat α) :
    BatchRepresents [shape] (activationHessianColumns shape H) H := by
  intro K M hM
  have hpref : prefs 0 [shape] = [⟨0, shape⟩] := rfl
  obtain ⟨Y, h1, h2, h3⟩ := columnLoop_spec (fun v => hvp H (prefs 0 [shape]) v (prefs 0 [shape])) (M := M)
    (T := M.map Tensor.zerosLike) (shapesOut := [shape]) (K := K)
    (fun n hn => (hvp_spec H [shape] 0 _ (cols_spec hM hn).1).1) (hasShapes_zeros hM) (fun r _ k _ => flat_zeros M _)
  refine ⟨Y, ?_, h2, h2.flatData_length, ?_⟩
  · unfold activationHessianColumns
    simp only [numVecs_ok hM (by simp)]
    exact h1
  · intro r hr k hk
    rw [h3 r hr k hk, (hvp_spec H [shape] 0 _ (cols_spec hM hk).1).2 r hr]
    refine Finset.sum_congr rfl fun c hc => ?_
    rw [(cols_spec hM hk).2 c (Finset.mem_range.mp hc), Nat.zero_add, Nat.zero_add]

/-- C67: for one non-empty mini-batch, the operator exists and multiplies with the matrix of second partial derivatives of the
loss in the requested tensor of the last call of the module, without any scaling, for both reductions; its shape is that of
the activation. -/
theorem activationHessianOp_represents [Field α] [CharZero α] (pr : ActivationProblem T α) (w : HookWorld T)
    (red : Reduction) (hred : red = .mean ∨ red = .sum) (N : Nat) (hN : 0 < N) (hu : w.Unused pr.fresh)
    (hname : pr.activation.1 ∈ (namedModules pr.model []).map Prod.fst)
    (hio : pr.activation.2.1 = "input" ∨ pr.activation.2.1 = "output") (m : Nat)
    (hm : pr.model.lookup pr.activation.1 = some m) (out : ModOut T) (hp : (pr.forward.eval w.hooks).1 = .ok out)
    (hex : ∀ c ∈ (pr.forward.eval w.hooks).2, c.mod = m →
      ∃ t, IsRequested pr.activation.2.1 pr.activation.2.2 c.inputs c.output t)
    (c : ModCall T) (hc : ((pr.forward.eval w.hooks).2.filter fun c => c.mod = m).getLast? = some c) :
    ∃ t op, IsRequested pr.activation.2.1 pr.activation.2.2 c.inputs c.output t ∧
      activationHessianOp pr w red N = .ok op ∧ op.inShape = [pr.shape t] ∧ op.outShape = [pr.shape t] ∧
      Represents op (pr.hess t) := by
  have hf := fetchActivation_last pr.model pr.activation.1 pr.activation.2.1 pr.activation.2.2 pr.fresh pr.forward w hu hname hio
    m hm out hp hex
  rw [hc] at hf
  obtain ⟨t, ht, hreq⟩ := hf
  have hb : ∀ M, activationHessianMatmatBatch pr w M = activationHessianColumns (pr.shape t) (pr.hess t) M := by
    intro M
    unfold activationHessianMatmatBatch
    rw [ht]
  have hN' : (N : α) ≠ 0 := by exact_mod_cast hN.ne'
  have hop := curvatureOp_represents red N id (fun _ => activationHessianMatmatBatch pr w) (fun _ => pr.hess t)
    [pr.shape t] (fun _ => 1) [N] (fun b _ => by
      intro K M hM
      rw [hb]
      exact activationHessianColumns_represents (pr.shape t) (pr.hess t) K M hM) (fun b hb' => by
      rw [List.mem_singleton] at hb'
      subst hb'
      unfold normalizationFactor
      rw [if_neg hN.ne']
      rcases hred with rfl | rfl
      · simp [hN']
      · simp)
  refine ⟨t, curvatureOp [pr.shape t] red N id (fun _ => activationHessianMatmatBatch pr w) [N], hreq, ?_, rfl, rfl, ?_⟩
  · unfold activationHessianOp
    rw [ht]
    simp [inferNData, curvatureOp]
  · simpa using hop

theorem isAt_unique {l : List T} {i : Int} {t t' : T} (h : IsAt l i t) (h' : IsAt l i t') : t = t' := by
  obtain ⟨n, h1, h2⟩ := h
  obtain ⟨n', h1', h2'⟩ := h'
  have hl := (List.getElem?_eq_some_iff.mp h1).1
  have hl' := (List.getElem?_eq_some_iff.mp h1').1
  have : n = n' := by omega
  subst this
  exact Option.some.inj (h1.symm.trans h1')

theorem isRequested_unique {io : String} {idx : Int} {inputs : List T} {o : ModOut T} {t t' : T}
    (h : IsRequested io idx inputs o t) (h' : IsRequested io idx inputs o t') : t = t' := by
  rcases h with ⟨rfl, h⟩ | ⟨rfl, h⟩ <;> rcases h' with ⟨e, h'⟩ | ⟨e, h'⟩
  · exact isAt_unique h h'
  · exact absurd e (by decide)
  · exact absurd e (by decide)
  · rcases h with ⟨rfl, -⟩ | ⟨ts, rfl, h⟩ <;> rcases h' with ⟨h', -⟩ | ⟨ts', h', h''⟩
    · cases h'; rfl
    · cases h'
    · cases h'
    · cases h'; exact isAt_unique h h''

/-- C67: two requests for the same tensor, for example for the output of a module and for the input of the next one, give the
same operator. -/
theorem activationHessianOp_same [DivisionRing α] (pr : ActivationProblem T α) (w : HookWorld T) (red : Reduction) (N : Nat)
    (hu : w.Unused pr.fresh) (name' io' : String) (idx' : Int)
    (hname : pr.activation.1 ∈ (namedModules pr.model []).map Prod.fst) (hname' : name' ∈ (namedModules pr.model []).map Prod.fst)
    (hio : pr.activation.2.1 = "input" ∨ pr.activation.2.1 = "output") (hio' : io' = "input" ∨ io' = "output") (m m' : Nat)
    (hm : pr.model.lookup pr.activation.1 = some m) (hm' : pr.model.lookup name' = some m')
    (out : ModOut T) (hp : (pr.forward.eval w.hooks).1 = .ok out)
    (hex : ∀ c ∈ (pr.forward.eval w.hooks).2, c.mod = m →
      ∃ t, IsRequested pr.activation.2.1 pr.activation.2.2 c.inputs c.output t)
    (hex' : ∀ c ∈ (pr.forward.eval w.hooks).2, c.mod = m' → ∃ t, IsRequested io' idx' c.inputs c.output t)
    (c c' : ModCall T) (hc : ((pr.forward.eval w.hooks).2.filter fun c => c.mod = m).getLast? = some c)
    (hc' : ((pr.forward.eval w.hooks).2.filter fun c => c.mod = m').getLast? = some c') (t : T)
    (ht : IsRequested pr.activation.2.1 pr.activation.2.2 c.inputs c.output t)
    (ht' : IsRequested io' idx' c'.inputs c'.output t) :
    activationHessianOp { pr with activation := (name', io', idx') } w red N = activationHessianOp pr w red N := by
  have hf := fetchActivation_last pr.model pr.activation.1 pr.activation.2.1 pr.activation.2.2 pr.fresh pr.forward w hu hname hio
    m hm out hp hex
  have hf' := fetchActivation_last pr.model name' io' idx' pr.fresh pr.forward w hu hname' hio' m' hm' out hp hex'
  rw [hc] at hf
  rw [hc'] at hf'
  obtain ⟨s, hs, hr⟩ := hf
  obtain ⟨s', hs', hr'⟩ := hf'
  have e := isRequested_unique hr ht
  have e' := isRequested_unique hr' ht'
  subst e e'
  change (fetchActivation pr.model pr.activation pr.fresh pr.forward w).1 = _ at hs
  unfold activationHessianOp activationHessianMatmatBatch
  simp only [hs, hs']

/-- A forward pass through two layers: the output of the first is the input of the second, so both requests give the same
operator. -/
def twoLayers : Fwd Nat :=
  .call 1 [0] (.ret (.tensor 1)) fun
    | .error e => .raise e
    | .ok _ => .call 2 [1] (.ret (.tensor 2)) fun
      | .error e => .raise e
      | .ok o => .ret o

example (hess : Nat → Nat → Nat → ℚ) (w : HookWorld Nat) (hw : w.hooks = fun _ => []) (red : Reduction) :
    activationHessianOp (α := ℚ)
        ⟨[("", 0), ("0", 1), ("1", 2)], ("0", "output", 0), twoLayers, 7, fun _ => [5, 3], hess⟩ w red 5 =
      activationHessianOp
        ⟨[("", 0), ("0", 1), ("1", 2)], ("1", "input", 0), twoLayers, 7, fun _ => [5, 3], hess⟩ w red 5 := by
  obtain ⟨hooks, i, l⟩ := w
  simp only at hw
  subst hw
  rfl

example (hess : Nat → Nat → Nat → ℚ) : ∃ op, activationHessianOp (α := ℚ)
    ⟨[("", 0), ("0", 1), ("1", 2)], ("1", "input", 0), twoLayers, 7, fun t => [5, t + 1], hess⟩ ⟨fun _ => [], 0, fun _ => []⟩
    .mean 5 = .ok op ∧ op.inShape = [[5, 2]] ∧ Represents op (hess 1) := by
  obtain ⟨t, op, h1, h2, h3, -, h4⟩ := activationHessianOp_represents (α := ℚ)
    ⟨[("", 0), ("0", 1), ("1", 2)], ("1", "input", 0), twoLayers, 7, fun t => [5, t + 1], hess⟩ ⟨fun _ => [], 0, fun _ => []⟩
    .mean (Or.inl rfl) 5 (by norm_num) (by intro m h hh; cases hh) (by simp only; decide) (Or.inl rfl) 2 rfl (.tensor 2) rfl
    (by
      intro c hc hm
      have : c ∈ [(⟨1, [0], .tensor 1⟩ : ModCall Nat), ⟨2, [1], .tensor 2⟩] := hc
      simp only [List.mem_cons, List.not_mem_nil, or_false] at this
      rcases this with rfl | rfl
      · simp at hm
      · exact ⟨1, Or.inl ⟨rfl, 0, rfl, Or.inl rfl⟩⟩) ⟨2, [1], .tensor 2⟩ rfl
  have ht : t = 1 := by
    rcases h1 with ⟨-, n, hn, hi⟩ | ⟨h, -⟩
    · simp only at hi
      rcases hi with hi | ⟨-, hi⟩
      · have : n = 0 := by
          have : ((0 : Int)) = n := hi
          omega
        subst this
        exact (Option.some.inj hn).symm
      · exact absurd hi (by decide)
    · exact absurd (show "input" = "output" from h) (by decide)
  subst ht
  exact ⟨op, h2, h3, h4⟩

end Curvlinops
