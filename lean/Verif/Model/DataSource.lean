import Verif.Model.Determinism

/-!
# Model of how the operators traverse `data`
(`/repo/curvlinops/_torch_base.py:463, 489-508, 526-547, 568-596, 729-731`, `jacobian.py:85, 202`)

`data` is annotated as an `Iterable`. Some iterables can be traversed repeatedly (lists, data loaders), others
only once (generators, `zip`, `map`, the iterator of a data loader): for them `iter(data)` is `data` itself and
every batch is handed out once.
-/

namespace Curvlinops

/-- The object passed as `data`, with what is left of it. Simplification: a repeatable object hands out the same
batches in every traversal (shuffling is covered by the property on the data order). -/
inductive Source (B : Type _)
  | repeatable (batches : List B)
  | oneShot (rest : List B)

variable {B X R V : Type _}

/-- `next(iter(data))` (`_torch_base.py:463`, `jacobian.py:85, 202`): `none` is `StopIteration`. A one-shot
object loses the batch. -/
def Source.peek : Source B → Option B × Source B
  | .repeatable bs => (bs.head?, .repeatable bs)
  | .oneShot bs => (bs.head?, .oneShot bs.tail)

/-- `for X, y in self._loop_over_data(...)` run to the end (`_torch_base.py:568-596`). Simplification: the
moves to the device and the progress bar, which only wraps the iterable, are left out. -/
def Source.traverse : Source B → List B × Source B
  | .repeatable bs => (bs, .repeatable bs)
  | .oneShot bs => (bs, .oneShot [])

/-- `zip` of a one-shot object with itself: the two sides take batches in turn, and a last batch without partner
is taken by the first side and dropped. -/
def pairUp : List B → List (B × B)
  | a :: b :: rest => (a, b) :: pairUp rest
  | _ => []

/-- `zip(self.data_prediction_loss_gradient(), self.data_prediction_loss_gradient())`
(`_torch_base.py:729-731`) run to the end: two traversals of the same object in lock step. -/
def Source.traverseTwice : Source B → List (B × B) × Source B
  | .repeatable bs => (bs.zip bs, .repeatable bs)
  | .oneShot bs => (pairUp bs, .oneShot [])

/-- Arguments and class attributes that decide how the constructor uses `data`: `peekShape` is `True` for the
(transposed) Jacobian, whose `_get_out_shape`/`_get_in_shape` looks at the first batch. `record nData b` is what
`data_prediction_loss_gradient` yields for a batch, `apply nData bs` the product with the random vector of
`__check_deterministic_matvec` (`:819-835`) when the traversal hands out `bs`. Simplification: `record` does not
raise. -/
structure DataCfg (B V : Type _) where
  batchSize : B → Nat
  numData : Option Nat
  peekShape : Bool
  check : Bool
  hasLoss : Bool
  fixedOrder : Bool
  numParams : Nat
  close : V → V → Bool
  record : Nat → B → Rec V
  apply : Nat → List B → Py V

/-- `self._N_data` (`_torch_base.py:489-496`), with what is left of the data. -/
def countData (cfg : DataCfg B V) (src : Source B) : Nat × Source B :=
  match cfg.numData with
  | some n => (n, src)
  | none => ((src.traverse.1.map cfg.batchSize).sum, src.traverse.2)

/-- `_check_deterministic` (`_torch_base.py:693-762`) on the object: two traversals in lock step, then two
products. -/
def checkSource [AddCommMonoid V] (cfg : DataCfg B V) (nData : Nat) (src : Source B) : Py (Source B) :=
  let z := src.traverseTwice
  let t1 := z.2.traverse
  let t2 := t1.2.traverse
  match checkDeterministic cfg.close cfg.fixedOrder cfg.hasLoss cfg.numParams
      (z.1.map fun p => cfg.record nData p.1) (z.1.map fun p => cfg.record nData p.2)
      (cfg.apply nData t1.1) (cfg.apply nData t2.1) with
  | .error e => .error e
  | .ok () => .ok t2.2

/-- `super().__init__(self._get_in_shape(), self._get_out_shape())` (`_torch_base.py:498`): for the Jacobians one
of the shapes comes from the first batch (`jacobian.py:85, 202`), for the others from the parameters. -/
def shapeSource (cfg : DataCfg B V) (src : Source B) : Py (Source B) :=
  if cfg.peekShape then
    match src.peek with
    | (none, _) => .error .stopIteration
    | (some _, src') => .ok src'
  else .ok src

/-- The parts of the constructor that touch `data`, in order (`_torch_base.py:463, 489-496, 498, 500-508`);
returns `self._N_data` and what is left of `self._data`. The other checks of the constructor are in
`initBlockSizes`. -/
def constructData [AddCommMonoid V] (cfg : DataCfg B V) (src : Source B) : Py (Nat × Source B) :=
  match src.peek with
  | (none, _) => .error .stopIteration
  | (some _, src1) =>
    let c := countData cfg src1
    match shapeSource cfg c.2 with
    | .error e => .error e
    | .ok src2 =>
      if cfg.check then
        match checkSource cfg c.1 src2 with
        | .error e => .error e
        | .ok src3 => .ok (c.1, src3)
      else .ok (c.1, src2)

/-- Consecutive products `op @ M_1, op @ M_2, ...` of a constructed operator; each traverses the data once
(`_torch_base.py:542`, `jacobian.py:103, 226`). `product bs M` is the result if the traversal hands out `bs`. -/
def runProducts (product : List B → X → R) : Source B → List X → List R
  | _, [] => []
  | src, M :: Ms => product src.traverse.1 M :: runProducts product src.traverse.2 Ms

end Curvlinops
