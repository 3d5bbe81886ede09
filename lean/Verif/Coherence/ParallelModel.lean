import Verif.Coherence.AccumModel

/-!
# ParallelWordOccurrenceAccumulator (`gensim/topic_coherence/text_analysis.py`)

The master process puts batches of translated texts and then one `None` per worker on a bounded
first-in-first-out queue; workers take messages from it in any interleaving; a worker that takes
`None` sends its accumulator to the master.  Interruption from the keyboard and
exceptions inside workers are in `FailModel`.
-/

namespace Verif.Coherence.Parallel

variable {W : Type} [DecidableEq W]

/-- Models `yield_batches`, gensim/topic_coherence/text_analysis.py 482-492; the first argument is
the batch size, the second the batch being filled. -/
def yieldBatches {α : Type} (size : Nat) : List α → List α → List (List α)
  | batch, [] => match batch with
    | [] => []
    | x :: xs => [x :: xs]
  | batch, t :: ts =>
    if (batch ++ [t]).length = size then (batch ++ [t]) :: yieldBatches size [] ts
    else yieldBatches size (batch ++ [t]) ts

/-- Models `merge`, gensim/topic_coherence/text_analysis.py 404-407. -/
def merge (s o : Acc) : Acc :=
  { s with
    occ := fun t => s.occ t + o.occ t
    co := fun i j => s.co i j + o.co i j
    numDocs := s.numDocs + o.numDocs }

/-- Models `merge_accumulators`, gensim/topic_coherence/text_analysis.py 539-552. -/
def mergeAccumulators (accs : List Acc) : Acc := symmetrize (accs.foldl merge Acc.init)

/-- Messages on the input queue: a batch of documents or the sentinel `None`. -/
abbrev Msg := Option (List (List Nat))

/-- State of the whole computation: messages the master still has to put, the input queue, the
accumulators of the workers still running (in no particular order) and the output queue. -/
structure St where
  toPut : List Msg
  queue : List Msg
  running : List Acc
  out : List Acc

/-- Models `__init__` (`ValueError` for fewer than two processes) and `start_workers`,
gensim/topic_coherence/text_analysis.py 430-436, 454-480, with the messages `queue_all_texts` (494-505)
and `terminate_workers` (522-524) are going to put. -/
def start (rel : List W) (processes batchSize : Nat) (texts : List (List W)) : Option St :=
  if processes < 2 then none
  else some
    { toPut := (yieldBatches batchSize [] (iterTexts rel texts)).map some
        ++ List.replicate processes none
      queue := []
      running := List.replicate processes Acc.init
      out := [] }

/-- One step of the system: the master puts the next message if the queue (of size `processes`, 471)
has room (499, 524); a running worker takes a batch and accumulates it (583, 588); a running worker
takes the sentinel and replies with its accumulator (584-586, 598-601). -/
inductive Step (v k processes : Nat) : St → St → Prop
  | put (m : Msg) (ms q : List Msg) (running out : List Acc) (room : q.length < processes) :
      Step v k processes ⟨m :: ms, q, running, out⟩ ⟨ms, q ++ [m], running, out⟩
  | batch (docs : List (List Nat)) (ms q : List Msg) (l r : List Acc) (a : Acc) (out : List Acc) :
      Step v k processes ⟨ms, some docs :: q, l ++ a :: r, out⟩
        ⟨ms, q, l ++ partialAccumulate v k a docs :: r, out⟩
  | stop (ms q : List Msg) (l r : List Acc) (a : Acc) (out : List Acc) :
      Step v k processes ⟨ms, none :: q, l ++ a :: r, out⟩ ⟨ms, q, l ++ r, out ++ [a]⟩

/-- Any number of steps. -/
inductive Steps (v k processes : Nat) : Nat → St → St → Prop
  | refl (s : St) : Steps v k processes 0 s s
  | tail {n : Nat} {s t u : St} (h : Steps v k processes n s t) (st : Step v k processes t u) :
      Steps v k processes (n + 1) s u

/-- Models `accumulate`, gensim/topic_coherence/text_analysis.py 442-452, 526-528: once every message
is put and as many accumulators as there are workers have arrived, they are merged; otherwise the
master is still waiting (`none`). -/
def result (processes : Nat) (s : St) : Option Acc :=
  if s.toPut.isEmpty ∧ s.out.length = processes then some (mergeAccumulators s.out) else none

end Verif.Coherence.Parallel
