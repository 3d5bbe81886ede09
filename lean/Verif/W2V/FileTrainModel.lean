import Mathlib.Algebra.Order.Field.Basic
import Mathlib.Data.Int.Cast.Lemmas

/-!
# Training from a file (`corpus_file`): learning rates, totals and the training loss

gensim/models/word2vec_corpusfile.pyx 231-348 (`get_alpha`, `get_next_alpha`, `train_epoch_sg`; the same loop is in
`train_epoch_cbow`, gensim/models/fasttext_corpusfile.pyx 120-182 and, document by document,
gensim/models/doc2vec_corpusfile.pyx 286-388), gensim/models/word2vec.py 1007-1062 (`train`), 1092-1099
(`_worker_loop_corpusfile`), 1253-1285 (`_log_epoch_progress`) and 1325-1351 (`_train_epoch_corpusfile`).

Exact arithmetic in an ordered field instead of 32-bit floats. What a thread reads is given as the list of its batches
up to the end of the file (the reader itself is modelled in `Verif.W2V.ReadersModel`). The training of a batch appears by
its learning rate and its loss only.
-/

namespace Verif.FileTrain

variable {K : Type} [Field K] [LinearOrder K]

/-- A batch: sentences, raw words and words trained on. For Doc2Vec a batch is one document that is not empty. -/
structure Batch where
  sentences : Nat
  words : Nat
  effective : Nat

/-- The arguments of a training session: `model.alpha`, `model.min_alpha`, `model.epochs`, `model.workers` and the totals
given by the user. -/
structure Session (K : Type) where
  alpha : K
  minAlpha : K
  epochs : Nat
  workers : Nat
  totalExamples : Option Nat
  totalWords : Option Nat

/-- Models `-1 if _expected is None else _expected`, gensim/models/word2vec_corpusfile.pyx 282-283. -/
def expected : Option Nat → Int
  | none => -1
  | some n => n

/-- Models `get_alpha`, gensim/models/word2vec_corpusfile.pyx 231-232. -/
def getAlpha (alpha endAlpha : K) (cur epochs : Nat) : K := alpha - (alpha - endAlpha) * (cur : K) / (epochs : K)

/-- Models `get_next_alpha`, gensim/models/word2vec_corpusfile.pyx 235-249. -/
def getNextAlpha (startAlpha endAlpha : K) (examples words : Nat) (expEx expWords : Int) (cur epochs : Nat) : K :=
  let epochProgress : K :=
    if expEx ≠ -1 then (examples : K) / (expEx : K) else (words : K) / (expWords : K)
  let progress := ((cur : K) + epochProgress) / (epochs : K)
  max endAlpha (startAlpha - (startAlpha - endAlpha) * progress)

/-- The two meanings of `/` for C integers in Cython (by language level). -/
inductive Division | c | real

/-- Models `total_words > expected_words / c.workers`, gensim/models/word2vec_corpusfile.pyx 306. -/
def overShare (d : Division) (expWords : Int) (workers words : Nat) : Bool :=
  match d with
  | .c => decide ((words : Int) > Int.tdiv expWords workers)
  | .real => decide ((words : Int) * workers > expWords)

/-- Models the loop of `train_epoch_sg`, gensim/models/word2vec_corpusfile.pyx 306-346: the learning rates of the batches
trained on, and the totals. -/
def threadLoop (over : Nat → Bool) (next : Nat → Nat → K) : K → Batch → List Batch → List K × Batch
  | _, t, [] => ([], t)
  | alpha, t, b :: bs =>
    if over t.words then ([], t)
    else
      let t' : Batch := ⟨t.sentences + b.sentences, t.words + b.words, t.effective + b.effective⟩
      let r := threadLoop over next (next t'.sentences t'.words) t' bs
      (alpha :: r.1, r.2)

/-- Models `train_epoch_sg`, gensim/models/word2vec_corpusfile.pyx 278-349, for one thread in epoch `cur`. -/
def threadEpoch (d : Division) (s : Session K) (cur : Nat) (batches : List Batch) : List K × Batch :=
  threadLoop (overShare d (expected s.totalWords) s.workers)
    (fun ex ws => getNextAlpha s.alpha s.minAlpha ex ws (expected s.totalExamples) (expected s.totalWords) cur s.epochs)
    (getAlpha s.alpha s.minAlpha cur s.epochs) ⟨0, 0, 0⟩ batches

/-- The messages a thread puts on the progress queue, gensim/models/word2vec.py 1094-1099; a thread that fails puts
nothing (the exception ends the thread). -/
def threadMessages (result : Option Batch) : List (Option Batch) :=
  match result with
  | some b => [some b, none]
  | none => []

/-- Models the loop of `_log_epoch_progress`, gensim/models/word2vec.py 1258-1270: the reports are added up until all threads
have finished (trained words, raw words, reports). `none`: the queue is empty and the call waits forever. -/
def consume : Nat → Nat × Nat × Nat → List (Option Batch) → Option (Nat × Nat × Nat)
  | 0, acc, _ => some acc
  | _ + 1, _, [] => none
  | n + 1, acc, none :: ms => consume n acc ms
  | n + 1, acc, some b :: ms => consume (n + 1) (acc.1 + b.effective, acc.2.1 + b.words, acc.2.2 + 1) ms

/-- Models the loop of `train`, gensim/models/word2vec.py 1030-1048 and 1062, on the messages of each epoch: the totals
returned. -/
def trainTotals (workers : Nat) : Nat × Nat → List (List (Option Batch)) → Option (Nat × Nat)
  | acc, [] => some acc
  | acc, ms :: rest =>
    match consume workers (0, 0, 0) ms with
    | none => none
    | some r => trainTotals workers (acc.1 + r.1, acc.2 + r.2.1) rest

/-! ### The training loss -/

/-- What a thread does with the loss of the model: it reads it (gensim/models/word2vec_inner.pyx 476) and, after its batch or
its part of the file, stores the value read plus its own loss (gensim/models/word2vec_inner.pyx 592, 685;
gensim/models/word2vec_corpusfile.pyx 348, 446). -/
inductive Event | load (i : Nat) | store (i : Nat)
deriving DecidableEq

/-- The loss of the model and the value each thread has read. -/
structure LossState (K : Type) where
  loss : K
  read : Nat → K

/-- One event; `own i` is the loss of the work of thread (or job) `i`. -/
def lossStep (own : Nat → K) (s : LossState K) : Event → LossState K
  | .load i => { s with read := fun j => if j = i then s.loss else s.read j }
  | .store i => { s with loss := s.read i + own i }

/-- `get_latest_training_loss()` after a schedule of events, from a loss of zero (gensim/models/word2vec.py 1023). -/
def finalLoss (own : Nat → K) (schedule : List Event) : K :=
  (schedule.foldl (lossStep own) ⟨0, fun _ => 0⟩).loss

end Verif.FileTrain
