import Mathlib.Algebra.Order.Field.Basic
import Verif.Utils.ChunkModel

/-!
# Model of multi-threaded training: `gensim/models/word2vec.py` `_job_producer`, `_worker_loop`,
`_log_epoch_progress`, `_train_epoch`, `_get_next_alpha`; `gensim/models/doc2vec.py` `infer_vector`

Learning rates are numbers of an ordered field.  What training a job does to the vectors is not modelled.
-/

namespace Verif.W2V

variable {α : Type} {K : Type} [Field K] [LinearOrder K]

/-- models word2vec.py:1411-1433 `_get_next_alpha` -/
def nextAlpha (startAlpha endAlpha : K) (epochs : Nat) (epochProgress : K) (curEpoch : Nat) : K :=
  let progress := (curEpoch + epochProgress) / epochs
  max endAlpha (startAlpha - (startAlpha - endAlpha) * progress)

/-- the settings of one epoch; `len` is `_raw_word_count([data])`; `total = .inl n`: `total_examples=n`,
`.inr n`: `total_words=n` -/
structure ProdCfg (α K : Type) where
  batchWords : Nat
  len : α → Nat
  startAlpha : K
  endAlpha : K
  epochs : Nat
  curEpoch : Nat
  total : Nat ⊕ Nat

/-- the local variables of `_job_producer` and the jobs put so far -/
structure Prod (α K : Type) where
  batch : List α
  size : Nat
  pushedWords : Nat
  pushedExamples : Nat
  alpha : K
  jobs : List (List α × K)

/-- models word2vec.py:1168-1172 -/
def prodInit (cfg : ProdCfg α K) : Prod α K :=
  ⟨[], 0, 0, 0, nextAlpha cfg.startAlpha cfg.endAlpha cfg.epochs 0 cfg.curEpoch, []⟩

/-- models word2vec.py:1187-1195: the progress after pushing another `batch` -/
def progress (cfg : ProdCfg α K) (s : Prod α K) : Nat × Nat × K :=
  match cfg.total with
  | .inl n => (s.pushedWords, s.pushedExamples + s.batch.length, ((s.pushedExamples + s.batch.length : Nat) : K) / n)
  | .inr n =>
    (s.pushedWords + (s.batch.map cfg.len).sum, s.pushedExamples, ((s.pushedWords + (s.batch.map cfg.len).sum : Nat) : K) / n)

/-- models word2vec.py:1174-1199, one sentence -/
def prodStep (cfg : ProdCfg α K) (s : Prod α K) (d : α) : Prod α K :=
  if s.size + cfg.len d ≤ cfg.batchWords then { s with batch := s.batch ++ [d], size := s.size + cfg.len d }
  else
    let p := progress cfg s
    ⟨[d], cfg.len d, p.1, p.2.1, nextAlpha cfg.startAlpha cfg.endAlpha cfg.epochs p.2.2 cfg.curEpoch,
      s.jobs ++ [(s.batch, s.alpha)]⟩

/-- models word2vec.py:1142-1211 `_job_producer`: the jobs put on the queue.  With no total at all the
code divides by None; not modelled. -/
def jobs (cfg : ProdCfg α K) (data : List α) : List (List α × K) :=
  let s := data.foldl (prodStep cfg) (prodInit cfg)
  if s.batch = [] then s.jobs else s.jobs ++ [(s.batch, s.alpha)]

/-- models doc2vec.py:631-647: the learning rates of the `n` epochs left, `alpha -= alpha_delta` after each -/
def inferLoop (delta : K) : Nat → K → List K
  | 0, _ => []
  | n + 1, alpha => alpha :: inferLoop delta n (alpha - delta)

/-- models doc2vec.py:629-647: the learning rates of the epochs of `infer_vector` -/
def inferAlphas (alpha minAlpha : K) (epochs : Nat) : List K :=
  inferLoop ((alpha - minAlpha) / ((max (epochs - 1) 1 : Nat) : K)) epochs alpha

/-! ## The threads -/

/-- where a worker thread is: waiting for a job, holding one, having trained it (with the number of words
it counted as trained), having received the end marker, finished -/
inductive Wk (J : Type) where
  | idle
  | busy (j : J)
  | trained (j : J) (tally : Nat)
  | closing
  | done
deriving DecidableEq

/-- The state of `_train_epoch`.  `rest`: what the producer still puts; the two queues; the workers; the
consumer's count of unfinished workers and its totals (trained words, raw words, jobs).  `log` is a ghost
variable: the trainings done, in order. -/
structure Epoch (J : Type) where
  rest : List (Option J)
  jobQ : List (Option J)
  workers : List (Wk J)
  progQ : List (Option (J × Nat))
  unfinished : Nat
  trainedWords : Nat
  rawWords : Nat
  tally : Nat
  log : List (J × Nat)
deriving DecidableEq

/-- models word2vec.py:1386-1402 and 1208-1209: `w` workers, one end marker per worker after the jobs -/
def epochInit {J : Type} (w : Nat) (js : List J) : Epoch J :=
  ⟨js.map some ++ List.replicate w none, [], List.replicate w .idle, [], w, 0, 0, 0, []⟩

/-- One step of any thread.  `cj`, `cp`: the capacities of the two queues; `raw j`: `_raw_word_count(j)`;
the number of words trained on depends on random draws and is arbitrary. -/
inductive EStep {J : Type} (cj cp : Nat) (raw : J → Nat) : Epoch J → Epoch J → Prop
  /-- models word2vec.py:1183, 1202, 1209: `job_queue.put` blocks while the queue is full -/
  | put {s x r} : s.rest = x :: r → s.jobQ.length < cj →
      EStep cj cp raw s { s with rest := r, jobQ := s.jobQ ++ [x] }
  /-- models word2vec.py:1120-1125: a worker gets a job -/
  | get {s a b j q} : s.workers = a ++ .idle :: b → s.jobQ = some j :: q →
      EStep cj cp raw s { s with jobQ := q, workers := a ++ .busy j :: b }
  /-- models word2vec.py:1120-1121: a worker gets an end marker -/
  | stop {s a b q} : s.workers = a ++ .idle :: b → s.jobQ = none :: q →
      EStep cj cp raw s { s with jobQ := q, workers := a ++ .closing :: b }
  /-- models word2vec.py:1130 `_do_train_job` -/
  | train {s a b j} (n : Nat) : s.workers = a ++ .busy j :: b →
      EStep cj cp raw s { s with workers := a ++ .trained j n :: b, log := s.log ++ [(j, n)] }
  /-- models word2vec.py:1135: reporting back -/
  | report {s a b j n} : s.workers = a ++ .trained j n :: b → s.progQ.length < cp →
      EStep cj cp raw s { s with workers := a ++ .idle :: b, progQ := s.progQ ++ [some (j, n)] }
  /-- models word2vec.py:1122-1123: the worker quits -/
  | quit {s a b} : s.workers = a ++ .closing :: b → s.progQ.length < cp →
      EStep cj cp raw s { s with workers := a ++ .done :: b, progQ := s.progQ ++ [none] }
  /-- models word2vec.py:1257-1263: the consumer hears that a worker finished -/
  | finished {s q} : 0 < s.unfinished → s.progQ = none :: q →
      EStep cj cp raw s { s with progQ := q, unfinished := s.unfinished - 1 }
  /-- models word2vec.py:1264-1270: the consumer adds a report to its totals -/
  | count {s j n q} : 0 < s.unfinished → s.progQ = some (j, n) :: q →
      EStep cj cp raw s { s with
        progQ := q, trainedWords := s.trainedWords + n, rawWords := s.rawWords + raw j, tally := s.tally + 1 }

end Verif.W2V
