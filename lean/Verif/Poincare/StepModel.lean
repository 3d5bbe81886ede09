import Verif.Poincare.TrainModel
import Verif.Poincare.SampleModel
import Verif.Utils.ChunkModel

/-!
# Training on a batch and training sessions (`_prepare_training_batch`, `_update_vectors_batch`, `train`,
`_train_batchwise`, gensim/models/poincare.py)
-/

namespace Verif.Poincare

variable {n m : ℕ}

/-! ## One batch -/

/-- Models `indices_u`, gensim/models/poincare.py 452-454. -/
def indicesU (rs : List ((ℕ × ℕ) × List ℕ)) : List ℕ := rs.map fun r => r.1.1

/-- Models `indices_v`, gensim/models/poincare.py 452-456. -/
def indicesV (rs : List ((ℕ × ℕ) × List ℕ)) : List ℕ := rs.flatMap fun r => r.1.2 :: r.2

/-- Models lines 459-460: row `k` of the `b`-th column of `vectors_v`, that is the row
`b * (1 + negative) + k` of `self.kv.vectors[indices_v]`. -/
noncomputable def column (a : Vectors n) (m : ℕ) (rs : List ((ℕ × ℕ) × List ℕ)) (b : ℕ)
    (k : Fin (m + 1)) : Vec n :=
  a ((indicesV rs).getD (b * (m + 1) + k) 0)

/-- Row `b` of `vectors_u`, line 458. -/
noncomputable def rowU (a : Vectors n) (rs : List ((ℕ × ℕ) × List ℕ)) (b : ℕ) : Vec n :=
  a ((indicesU rs).getD b 0)

/-- Models `u_updates`, gensim/models/poincare.py 588. -/
noncomputable def uUpdates (alpha : ℝ) (a : Vectors n) (m : ℕ) (rs : List ((ℕ × ℕ) × List ℕ)) :
    List (Vec n) :=
  (List.range rs.length).map fun b =>
    (alpha * conf (rowU a rs b) ^ 2 / 4) • gradU (rowU a rs b) (column a m rs b)

/-- Models `v_updates`, gensim/models/poincare.py 594-596: after the two swaps and the reshape, row `p`
is the entry `p % (1 + negative)` of column `p / (1 + negative)`. -/
noncomputable def vUpdates (alpha reg : ℝ) (a : Vectors n) (m : ℕ) (rs : List ((ℕ × ℕ) × List ℕ)) :
    List (Vec n) :=
  (List.range ((m + 1) * rs.length)).map fun p =>
    (alpha * conf (column a m rs (p / (m + 1)) (Fin.ofNat (m + 1) p)) ^ 2 / 4) •
      gradV reg (rowU a rs (p / (m + 1))) (column a m rs (p / (m + 1))) (Fin.ofNat (m + 1) p)

/-- Models `_train_on_batch` after the negatives are sampled (lines 540-541), with
`_prepare_training_batch` and `_update_vectors_batch`, gensim/models/poincare.py 432-467 and 575-600.
`m` is `self.negative`; `none` is the `ValueError` of `reshape`. -/
noncomputable def trainOnBatch (eps alpha reg : ℝ) (m : ℕ) (a : Vectors n)
    (rs : List ((ℕ × ℕ) × List ℕ)) : Option (Vectors n) :=
  if (indicesV rs).length = rs.length * (m + 1) then
    some (updateBatch eps a (indicesU rs, uUpdates alpha a m rs) (indicesV rs, vUpdates alpha reg a m rs))
  else none

/-! ## Sessions -/

/-- The exceptions of `train`. -/
inductive TrainErr (X : Type)
  | notImplemented
  | value
  | zeroDivision
  | batch (x : X)
deriving DecidableEq

/-- The parameters of a model. -/
structure TrainCfg (R : Type) where
  workers : ℤ
  burnIn : ℤ
  trainAlpha : R
  burnInAlpha : R

/-- The state of a model: the learning rate, whether the burn-in is done, numpy's error settings (`true`:
division by zero and invalid values are ignored), the number of shuffles so far and the rest (vectors,
buffer, random numbers). -/
structure TrainSt (R M : Type) where
  alpha : R
  burnInDone : Bool
  ignore : Bool
  shuffles : ℕ
  model : M

/-- The arguments of a call of `train`. -/
structure TrainArgs where
  epochs : ℤ
  batchSize : ℤ
  printEvery : ℤ
  checkEvery : Option ℤ

variable {R M X : Type}

/-- Models `check_gradients`, gensim/models/poincare.py 683 (`bool(0)` and `bool(None)` are false). -/
def checks (every : Option ℤ) (num : ℕ) : Bool :=
  match every with
  | none => false
  | some e => decide (e ≠ 0) && decide ((num : ℤ) % e = 0)

/-- Models the loop over the batches of an epoch, gensim/models/poincare.py 681-699, from batch `num`
on; the printing is left out, except that `batch_num % print_every` raises for zero. -/
def batchLoop (onBatch : R → Bool → List (ℕ × ℕ) → M → Except X M) (args : TrainArgs) :
    ℕ → List (List (ℕ × ℕ)) → TrainSt R M → TrainSt R M × Option (TrainErr X)
  | _, [], st => (st, none)
  | num, b :: bs, st =>
    if args.printEvery = 0 then (st, some .zeroDivision)
    else match onBatch st.alpha (checks args.checkEvery num) b st.model with
      | .error x => (st, some (.batch x))
      | .ok m => batchLoop onBatch args (num + 1) bs { st with model := m }

/-- Models `range(0, len(indices), batch_size)` and the slices, gensim/models/poincare.py 681-685. -/
def batches (rels : List (ℕ × ℕ)) (batchSize : ℤ) (indices : List ℕ) : Option (List (List (ℕ × ℕ))) :=
  if batchSize = 0 then none
  else if batchSize < 0 then some []
  else some ((Chunk.chunks batchSize.toNat indices).map fun c => c.map fun i => rels.getD i (0, 0))

/-- Models one epoch, gensim/models/poincare.py 677-699; `shuffle k` is the list of indices after the
`k`-th shuffle. -/
def epoch (onBatch : R → Bool → List (ℕ × ℕ) → M → Except X M) (shuffle : ℕ → List ℕ)
    (rels : List (ℕ × ℕ)) (args : TrainArgs) (st : TrainSt R M) :
    TrainSt R M × Option (TrainErr X) :=
  let indices := shuffle st.shuffles
  let st := { st with shuffles := st.shuffles + 1 }
  match batches rels args.batchSize indices with
  | none => (st, some .value)
  | some bs => batchLoop onBatch args 1 bs st

/-- Models `_train_batchwise`, gensim/models/poincare.py 674-699, with `k` epochs left. -/
def trainBatchwise (onBatch : R → Bool → List (ℕ × ℕ) → M → Except X M) (shuffle : ℕ → List ℕ)
    (rels : List (ℕ × ℕ)) (args : TrainArgs) : ℕ → TrainSt R M → TrainSt R M × Option (TrainErr X)
  | 0, st => (st, none)
  | k + 1, st =>
    match epoch onBatch shuffle rels args st with
    | (st, some e) => (st, some e)
    | (st, none) => trainBatchwise onBatch shuffle rels args k st

/-- Models the part after the burn-in, gensim/models/poincare.py 649-656; `old` are numpy's settings
before. -/
def mainPart (onBatch : R → Bool → List (ℕ × ℕ) → M → Except X M) (shuffle : ℕ → List ℕ)
    (rels : List (ℕ × ℕ)) (cfg : TrainCfg R) (args : TrainArgs) (old : Bool) (st : TrainSt R M) :
    TrainSt R M × Option (TrainErr X) :=
  match trainBatchwise onBatch shuffle rels args args.epochs.toNat { st with alpha := cfg.trainAlpha } with
  | (st, some e) => (st, some e)
  | (st, none) => ({ st with ignore := old }, none)

/-- Models `train`, gensim/models/poincare.py 628-656. -/
def train (onBatch : R → Bool → List (ℕ × ℕ) → M → Except X M) (shuffle : ℕ → List ℕ)
    (rels : List (ℕ × ℕ)) (cfg : TrainCfg R) (args : TrainArgs) (st : TrainSt R M) :
    TrainSt R M × Option (TrainErr X) :=
  if cfg.workers > 1 then (st, some .notImplemented)
  else
    let old := st.ignore
    let st := { st with ignore := true }
    if 0 < cfg.burnIn ∧ st.burnInDone = false then
      match trainBatchwise onBatch shuffle rels args cfg.burnIn.toNat
          { st with alpha := cfg.burnInAlpha } with
      | (st, some e) => (st, some e)
      | (st, none) => mainPart onBatch shuffle rels cfg args old { st with burnInDone := true }
    else mainPart onBatch shuffle rels cfg args old st

end Verif.Poincare
