import Verif.Model.DataSource
import Mathlib.Data.Rat.Defs
import Mathlib.Algebra.Field.Rat
import Mathlib.Tactic.NormNum

/-!
# C76: data that can be traversed only once
-/

namespace Curvlinops

variable {B X R V : Type _}

/-! ## Repeatable data -/

/-- Products of an operator on repeatable data all see the whole data. -/
theorem runProducts_repeatable (product : List B → X → R) (bs : List B) (Ms : List X) :
    runProducts product (.repeatable bs) Ms = Ms.map (product bs) := by
  induction Ms with
  | nil => rfl
  | cons M Ms ih => simp [runProducts, Source.traverse, ih]

theorem map_zip_self_fst (f : B → R) (bs : List B) : (bs.zip bs).map (fun p => f p.1) = bs.map f := by
  induction bs with
  | nil => rfl
  | cons b bs ih => simp [ih]

theorem map_zip_self_snd (f : B → R) (bs : List B) : (bs.zip bs).map (fun p => f p.2) = bs.map f := by
  induction bs with
  | nil => rfl
  | cons b bs ih => simp [ih]

/-- On repeatable data the constructor raises `StopIteration` iff there is no batch; otherwise it knows the
number of data points and keeps all batches, unless the determinism check (which compares two full traversals)
raises. -/
theorem repeatable_construct [AddCommMonoid V] (cfg : DataCfg B V) (bs : List B) :
    constructData cfg (.repeatable bs) =
      if bs.isEmpty then .error .stopIteration
      else
        let n := inferNData cfg.batchSize bs cfg.numData
        match (if cfg.check then
            checkDeterministic cfg.close cfg.fixedOrder cfg.hasLoss cfg.numParams
              (bs.map (cfg.record n)) (bs.map (cfg.record n)) (cfg.apply n bs) (cfg.apply n bs)
          else .ok ()) with
        | .error e => .error e
        | .ok () => .ok (n, .repeatable bs) := by
  cases bs with
  | nil => rfl
  | cons b bs =>
    have hc : countData cfg (.repeatable (b :: bs)) =
        (inferNData cfg.batchSize (b :: bs) cfg.numData, .repeatable (b :: bs)) := by
      unfold countData inferNData
      cases cfg.numData <;> rfl
    have hs : shapeSource cfg (.repeatable (b :: bs)) = .ok (.repeatable (b :: bs)) := by
      unfold shapeSource
      cases cfg.peekShape <;> rfl
    unfold constructData
    simp only [Source.peek, List.head?_cons, hc, hs, List.isEmpty_cons, checkSource, Source.traverseTwice,
      Source.traverse, map_zip_self_fst, map_zip_self_snd]
    cases cfg.check with
    | false => simp
    | true =>
      simp only [if_true]
      cases checkDeterministic cfg.close cfg.fixedOrder cfg.hasLoss cfg.numParams
        ((b :: bs).map (cfg.record (inferNData cfg.batchSize (b :: bs) cfg.numData)))
        ((b :: bs).map (cfg.record (inferNData cfg.batchSize (b :: bs) cfg.numData)))
        (cfg.apply (inferNData cfg.batchSize (b :: bs) cfg.numData) (b :: bs))
        (cfg.apply (inferNData cfg.batchSize (b :: bs) cfg.numData) (b :: bs)) <;> rfl

/-! ## One-shot data -/

/-- Once a one-shot object is used up, every product sees no batch. -/
theorem runProducts_exhausted (product : List B → X → R) (Ms : List X) :
    runProducts product (.oneShot []) Ms = Ms.map (product []) := by
  induction Ms with
  | nil => rfl
  | cons M Ms ih => simp [runProducts, Source.traverse, ih]

/-- Without `num_data` and with a loss function, the determinism check refuses every one-shot object - with an
`UnboundLocalError`, whatever the data and the network are. -/
theorem oneShot_refused [AddCommMonoid V] (cfg : DataCfg B V) (b : B) (bs : List B)
    (hn : cfg.numData = none) (hs : cfg.peekShape = false) (hc : cfg.check = true)
    (hl : cfg.hasLoss = true) :
    constructData cfg (.oneShot (b :: bs)) = .error .unboundLocalError := by
  simp [constructData, Source.peek, countData, hn, shapeSource, hs, hc, checkSource, Source.traverseTwice,
    Source.traverse, pairUp, checkDeterministic, checkLoop, checkTotals, hl]

/-- Without `num_data`, the Jacobians refuse every one-shot object with a `StopIteration`. -/
theorem oneShot_jacobian_refused [AddCommMonoid V] (cfg : DataCfg B V) (bs : List B)
    (hn : cfg.numData = none) (hs : cfg.peekShape = true) :
    constructData cfg (.oneShot bs) = .error .stopIteration := by
  cases bs <;> simp [constructData, Source.peek, countData, hn, shapeSource, hs, Source.traverse]

/-- With the determinism check, a one-shot object is refused, or nothing is left of it: all products of the
constructed operator see no batch. -/
theorem oneShot_checked [AddCommMonoid V] (cfg : DataCfg B V) (bs : List B) (hc : cfg.check = true)
    {n : Nat} {src : Source B} (h : constructData cfg (.oneShot bs) = .ok (n, src))
    (product : List B → X → R) (Ms : List X) :
    runProducts product src Ms = Ms.map (product []) := by
  have key : src = .oneShot [] := by
    cases bs with
    | nil => simp [constructData, Source.peek] at h
    | cons b bs =>
      obtain ⟨rest, hcount⟩ : ∃ rest, (countData cfg (.oneShot bs)).2 = .oneShot rest := by
        unfold countData
        cases cfg.numData <;> exact ⟨_, rfl⟩
      simp only [constructData, Source.peek, List.head?_cons, List.tail_cons, hcount, hc, if_true] at h
      split at h
      · simp at h
      · rename_i src2 hs2
        obtain ⟨rest2, rfl⟩ : ∃ rest2, src2 = .oneShot rest2 := by
          unfold shapeSource Source.peek at hs2
          split at hs2 <;> cases rest <;> simp at hs2 <;> exact ⟨_, hs2.symm⟩
        split at h
        · simp at h
        · rename_i src3 hs3
          simp only [Except.ok.injEq, Prod.mk.injEq] at h
          rw [← h.2]
          simp only [checkSource, Source.traverseTwice, Source.traverse] at hs3
          split at hs3
          · simp at hs3
          · simpa using hs3.symm
  rw [key, runProducts_exhausted]

theorem pairUp_spec : ∀ bs : List B, (pairUp bs).length = bs.length / 2 ∧
    ∀ i (h : i < (pairUp bs).length), some (pairUp bs)[i].1 = bs[2 * i]? ∧ some (pairUp bs)[i].2 = bs[2 * i + 1]?
  | [] => by simp [pairUp]
  | [_] => by simp [pairUp]
  | a :: b :: rest => by
    obtain ⟨h1, h2⟩ := pairUp_spec rest
    refine ⟨by simp [pairUp, h1]; omega, fun i h => ?_⟩
    cases i with
    | zero => simp [pairUp]
    | succ i =>
      have := h2 i (by simpa [pairUp] using h)
      simpa [pairUp, Nat.mul_add] using this

/-- With check and `num_data`, the check compares the second batch with the third, the fourth with the fifth, and so on, and two
products that see no batch; the operator is accepted iff these agree. -/
theorem oneShot_check_pairs [AddCommMonoid V] (cfg : DataCfg B V) (b : B) (bs : List B) (N : Nat)
    (hn : cfg.numData = some N) (hs : cfg.peekShape = false) (hc : cfg.check = true) :
    ∃ zs : List (B × B), zs.length = bs.length / 2 ∧
      (∀ i (h : i < zs.length), some zs[i].1 = bs[2 * i]? ∧ some zs[i].2 = bs[2 * i + 1]?) ∧
      constructData cfg (.oneShot (b :: bs)) =
        match checkDeterministic cfg.close cfg.fixedOrder cfg.hasLoss cfg.numParams
          (zs.map fun z => cfg.record N z.1) (zs.map fun z => cfg.record N z.2) (cfg.apply N []) (cfg.apply N []) with
        | .error e => .error e
        | .ok () => .ok (N, .oneShot []) := by
  refine ⟨pairUp bs, (pairUp_spec bs).1, (pairUp_spec bs).2, ?_⟩
  simp only [constructData, Source.peek, List.head?_cons, List.tail_cons, countData, hn, shapeSource, hs, hc, checkSource,
    Source.traverseTwice, Source.traverse, if_true, Bool.false_eq_true, if_false]
  cases checkDeterministic cfg.close cfg.fixedOrder cfg.hasLoss cfg.numParams
    ((pairUp bs).map fun z => cfg.record N z.1) ((pairUp bs).map fun z => cfg.record N z.2) (cfg.apply N []) (cfg.apply N []) <;> rfl

/-- Without check and without `num_data`, a one-shot object is accepted, the number of data points misses the
first batch, and all products see no batch. -/
theorem oneShot_unchecked [AddCommMonoid V] (cfg : DataCfg B V) (b : B) (bs : List B)
    (hn : cfg.numData = none) (hs : cfg.peekShape = false) (hc : cfg.check = false) :
    ∃ src, constructData cfg (.oneShot (b :: bs)) = .ok ((bs.map cfg.batchSize).sum, src) ∧
      ∀ (product : List B → X → R) (Ms : List X),
        runProducts product src Ms = Ms.map (product []) := by
  refine ⟨.oneShot [], ?_, fun product Ms => runProducts_exhausted product Ms⟩
  simp [constructData, Source.peek, countData, hn, shapeSource, hs, hc, Source.traverse]

/-- Without check and with `num_data`, the first product misses the first batch and the others see no batch. -/
theorem oneShot_unchecked_num_data [AddCommMonoid V] (cfg : DataCfg B V) (b : B) (bs : List B) (N : Nat)
    (hn : cfg.numData = some N) (hs : cfg.peekShape = false) (hc : cfg.check = false) :
    ∃ src, constructData cfg (.oneShot (b :: bs)) = .ok (N, src) ∧
      ∀ (product : List B → X → R) (M : X) (Ms : List X),
        runProducts product src (M :: Ms) = product bs M :: Ms.map (product []) := by
  refine ⟨.oneShot bs, ?_, fun product M Ms => ?_⟩
  · simp [constructData, Source.peek, countData, hn, shapeSource, hs, hc]
  · simp [runProducts, Source.traverse, runProducts_exhausted]

/-- The product of a curvature operator that sees no batch is zero, without exception, even if the number of
data points is zero. -/
theorem curvature_no_batch {α : Type _} [DivisionRing α] (red : Reduction) (nData : Nat) (batchSize : B → Nat)
    (batchMatmat : B → List (Tensor α) → Py (List (Tensor α))) (M : List (Tensor α)) :
    curvatureMatmat red nData batchSize batchMatmat [] M =
      .ok (M.map fun t => ⟨t.shape, List.replicate t.data.length 0⟩) := by
  simp [curvatureMatmat, matmatLoop, Tensor.zerosLike]

/-! ## Witnesses -/

/-- One parameter, mini-batches of one datum `b` with Hessian `b`; reduction `sum`. -/
def wCfg (numData : Option Nat) (check : Bool) : DataCfg ℚ ℚ :=
  ⟨fun _ => 1, numData, false, check, true, false, 1, fun a b => decide (a = b),
    fun _ b => ⟨.tensor b, b, b, b, [b]⟩, fun _ bs => .ok bs.sum⟩

def wBatch (b : ℚ) (M : List (Tensor ℚ)) : Py (List (Tensor ℚ)) :=
  .ok (M.map fun t => ⟨t.shape, t.data.map (b * ·)⟩)

/-- The claim fails: with the check switched off, the Hessian of the same two batches times `1` is `5` for the
list and `0` for the generator. -/
theorem oneShot_wrong :
    (∃ src, constructData (wCfg none false) (.repeatable [2, 3]) = .ok (2, src) ∧
      runProducts (curvatureMatmat .sum 2 (fun _ => 1) wBatch) src [[⟨[1, 1], [1]⟩]]
        = [.ok [⟨[1, 1], [5]⟩]]) ∧
    (∃ src, constructData (wCfg none false) (.oneShot [2, 3]) = .ok (1, src) ∧
      runProducts (curvatureMatmat .sum 1 (fun _ => 1) wBatch) src [[⟨[1, 1], [1]⟩]]
        = [.ok [⟨[1, 1], [0]⟩]]) := by
  refine ⟨⟨.repeatable [2, 3], ?_, ?_⟩, ⟨.oneShot [], ?_, ?_⟩⟩
  · simp [constructData, Source.peek, countData, wCfg, shapeSource, Source.traverse]
  · simp [runProducts, Source.traverse, curvatureMatmat, matmatLoop, normalizationFactor, wBatch, zipUpdate,
      Tensor.addScaled, Tensor.zerosLike]
    norm_num
  · simp [constructData, Source.peek, countData, wCfg, shapeSource, Source.traverse]
  · simp [runProducts, Source.traverse, curvatureMatmat, matmatLoop, Tensor.zerosLike]

/-- The claim fails even with the check switched on if `num_data` is given: three batches, of which the last two
coincide, pass the check because they are compared with each other; then all products are `0`. -/
theorem oneShot_checked_wrong :
    ∃ src, constructData (wCfg (some 3) true) (.oneShot [2, 3, 3]) = .ok (3, src) ∧
      runProducts (curvatureMatmat .sum 3 (fun _ => 1) wBatch) src [[⟨[1, 1], [1]⟩]]
        = [.ok [⟨[1, 1], [0]⟩]] := by
  refine ⟨.oneShot [], ?_, ?_⟩
  · simp [constructData, Source.peek, countData, wCfg, shapeSource, checkSource, Source.traverseTwice, pairUp,
      Source.traverse, checkDeterministic, checkLoop, checkTotals, addZip, expectClose]
  · simp [runProducts, Source.traverse, curvatureMatmat, matmatLoop, Tensor.zerosLike]

/-- The second product with the same matrix differs from the first. -/
theorem oneShot_second_product :
    ∃ src, constructData (wCfg (some 2) false) (.oneShot [2, 3]) = .ok (2, src) ∧
      runProducts (curvatureMatmat .sum 2 (fun _ => 1) wBatch) src [[⟨[1, 1], [1]⟩], [⟨[1, 1], [1]⟩]]
        = [.ok [⟨[1, 1], [3]⟩], .ok [⟨[1, 1], [0]⟩]] := by
  refine ⟨.oneShot [3], ?_, ?_⟩
  · simp [constructData, Source.peek, countData, wCfg, shapeSource]
  · simp [runProducts, Source.traverse, curvatureMatmat, matmatLoop, normalizationFactor, wBatch, zipUpdate,
      Tensor.addScaled, Tensor.zerosLike]

/-! ## Examples -/

/-- Three different batches are refused. -/
example : constructData (wCfg (some 3) true) (.oneShot [2, 3, 4]) = .error .runtimeError := by
  simp [constructData, Source.peek, countData, wCfg, shapeSource, checkSource, Source.traverseTwice, pairUp,
    checkDeterministic, checkLoop, checkTotals]

example : constructData (wCfg none true) (.repeatable [2, 3]) = .ok (2, .repeatable [2, 3]) := by
  rw [repeatable_construct]
  simp [inferNData, wCfg, checkDeterministic, checkLoop, checkTotals, addZip, expectClose]

example : constructData (wCfg none true) (.oneShot [2, 3]) = .error .unboundLocalError :=
  oneShot_refused _ _ _ rfl rfl rfl rfl

example : constructData (wCfg none true) (.oneShot ([] : List ℚ)) = .error .stopIteration := rfl

example : constructData { wCfg none true with peekShape := true } (.oneShot [2, 3]) = .error .stopIteration :=
  oneShot_jacobian_refused _ _ rfl rfl

example : runProducts (fun bs (x : ℚ) => bs.sum * x) (.repeatable [2, 3]) [1, 2] = [5, 10] := by
  rw [runProducts_repeatable]; norm_num

example : runProducts (fun bs (x : ℚ) => bs.sum * x) (.oneShot [2, 3]) [1, 2] = [5, 0] := by
  simp [runProducts, Source.traverse]; norm_num

end Curvlinops
