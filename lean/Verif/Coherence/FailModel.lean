import Verif.Coherence.ParallelModel
import Verif.Coherence.SegmentModel
import Verif.Coherence.MeasureModel
import Verif.KeyedVectors.GeomModel

/-!
# Failing workers and interruption of parallel accumulation; the `c_w2v` measure

`gensim/topic_coherence/text_analysis.py`: `AccumulatingWorker.run` (570-580) with its exceptions,
`accumulate`/`terminate_workers` (442-452, 507-537) with `KeyboardInterrupt`, `WordVectorsAccumulator`
(604-665); `gensim/topic_coherence/indirect_confirmation_measure.py`: `word2vec_similarity` (90-117).

Simplifications: a worker fails between two windows (not in the middle of the update for one window);
training a new Word2Vec model is represented by the keyword arguments it is constructed with.
-/

namespace Verif.Coherence.Fail

open Verif Verif.Coherence Verif.Coherence.Parallel

variable {W : Type} [DecidableEq W]

/-- The accumulator of a worker in which an exception is raised after `j` windows of a batch: the update of
`_co_occurrences` from `_counter` at the end of `partial_accumulate`
(`gensim/topic_coherence/text_analysis.py` 346-364) is not reached. -/
def brokenAccumulate (v k j : Nat) (s : Acc) (docs : List (List Nat)) : Acc :=
  ((iterWindows k docs).take j).foldl (accStep v) { s with cur := none, edge := none, counter := fun _ _ => 0 }

/-- One step of the system in which workers may fail, `gensim/topic_coherence/text_analysis.py` 570-580: the
exception is logged, and `finally` sends what the worker has counted so far to the master. -/
inductive FStep (v k processes : Nat) : St → St → Prop
  | ok {s t : St} (h : Step v k processes s t) : FStep v k processes s t
  | fail (docs : List (List Nat)) (j : Nat) (ms q : List Msg) (l r : List Acc) (a : Acc) (out : List Acc) :
      FStep v k processes ⟨ms, some docs :: q, l ++ a :: r, out⟩
        ⟨ms, q, l ++ r, out ++ [brokenAccumulate v k j a docs]⟩

/-- One step of the system in which moreover the master may be interrupted while it puts batches
(`gensim/topic_coherence/text_analysis.py` 444-449, 522: it then puts neither the remaining batches nor the
sentinels), and a worker while it waits for a message (573-576). -/
inductive IStep (v k processes : Nat) : St → St → Prop
  | ok {s t : St} (h : FStep v k processes s t) : IStep v k processes s t
  | master (ms q : List Msg) (running out : List Acc) (h : processes ≤ ms.length) :
      IStep v k processes ⟨ms, q, running, out⟩ ⟨[], q, running, out⟩
  | worker (ms q : List Msg) (l r : List Acc) (a : Acc) (out : List Acc) :
      IStep v k processes ⟨ms, q, l ++ a :: r, out⟩ ⟨ms, q, l ++ r, out ++ [a]⟩

/-- Any number of steps of a relation. -/
inductive Run (R : St → St → Prop) : St → St → Prop
  | refl (s : St) : Run R s s
  | tail {s t u : St} (h : Run R s t) (st : R t u) : Run R s u

/-! ## `WordVectorsAccumulator` -/

section W2V

open Verif.KvGeom (Vec Err nSimilarity)

variable {n : ℕ}

/-- `[self.dictionary.id2token[word_id] for word_id in ids]`,
`gensim/topic_coherence/text_analysis.py` 664; a missing id is a `KeyError`. -/
def tokens (id2token : PyDict Nat W) : List Nat → Except Err (List W)
  | [] => .ok []
  | i :: is =>
    match PyDict.get? id2token i with
    | none => .error .key
    | some w =>
      match tokens id2token is with
      | .error e => .error e
      | .ok ws => .ok (w :: ws)

/-- Models `_words_with_embeddings`, `gensim/topic_coherence/text_analysis.py` 660-665, on a list of ids (a
single id is wrapped, 661-662). -/
def wordsWithEmbeddings (id2token : PyDict Nat W) (kv : PyDict W (Vec n)) (ids : List Nat) :
    Except Err (List W) :=
  match tokens id2token ids with
  | .error e => .error e
  | .ok ws => .ok (ws.filter fun w => PyDict.contains kv w)

/-- Models `ids_similarity`, `gensim/topic_coherence/text_analysis.py` 655-658. -/
noncomputable def idsSimilarity (id2token : PyDict Nat W) (kv : PyDict W (Vec n)) (a b : List Nat) :
    Except Err ℝ :=
  match wordsWithEmbeddings id2token kv a with
  | .error e => .error e
  | .ok ws1 =>
    match wordsWithEmbeddings id2token kv b with
    | .error e => .error e
    | .ok ws2 => nSimilarity kv ws1 ws2

/-- Models the loop over the segments of one topic in `word2vec_similarity`,
`gensim/topic_coherence/indirect_confirmation_measure.py` 94-106: the similarities, and the number of segments
with a `ZeroDivisionError`. -/
noncomputable def segmentSims (id2token : PyDict Nat W) (kv : PyDict W (Vec n)) :
    List (List Nat × List Nat) → Except Err (List ℝ × Nat)
  | [] => .ok ([], 0)
  | (a, b) :: segs =>
    match idsSimilarity id2token kv a b with
    | .ok x =>
      match segmentSims id2token kv segs with
      | .error e => .error e
      | .ok (xs, oov) => .ok (x :: xs, oov)
    | .error .zeroDiv =>
      match segmentSims id2token kv segs with
      | .error e => .error e
      | .ok (xs, oov) => .ok (xs, oov + 1)
    | .error e => .error e

/-- `np.std`: `nan` (`none`) for the empty list. -/
noncomputable def std (l : List ℝ) : Option ℝ :=
  match mean l with
  | none => none
  | some m => (mean (l.map fun x => (x - m) * (x - m))).map Real.sqrt

/-- Models `aggregate_segment_sims` with `with_std` and `with_support`,
`gensim/topic_coherence/direct_confirmation_measure.py` 100-108. -/
noncomputable def aggregate (l : List ℝ) : Option ℝ × Option ℝ × Nat := (mean l, std l, l.length)

/-- Models `word2vec_similarity`, `gensim/topic_coherence/indirect_confirmation_measure.py` 90-117, with all
statistics; the second component lists the numbers in the warnings, one for each topic with a segment that was
left out (108-112), the third is the number in the last warning (115-116; 0: no warning). -/
noncomputable def word2vecSimilarity (id2token : PyDict Nat W) (kv : PyDict W (Vec n)) :
    List (List (List Nat × List Nat)) →
      Except Err (List (Option ℝ × Option ℝ × Nat) × List Nat × Nat)
  | [] => .ok ([], [], 0)
  | t :: ts =>
    match segmentSims id2token kv t with
    | .error e => .error e
    | .ok (sims, oov) =>
      match word2vecSimilarity id2token kv ts with
      | .error e => .error e
      | .ok (cs, ws, total) =>
        .ok (aggregate sims :: cs, if 0 < oov then oov :: ws else ws, if 0 < oov then total + 1 else total)

/-- The segments of `s_one_set` with a single id made a list,
`gensim/topic_coherence/indirect_confirmation_measure.py` 98-101. -/
def wrapped (topics : List (List Nat)) : List (List (List Nat × List Nat)) :=
  (sOneSet topics).map fun t => t.map fun p => ([p.1], p.2)

/-- Models the pipeline `c_w2v` from the segmentation to the mean over all topics,
`gensim/models/coherencemodel.py` 63-68 and `get_coherence_per_topic`/`get_coherence`. -/
noncomputable def cW2v (id2token : PyDict Nat W) (kv : PyDict W (Vec n)) (topics : List (List Nat)) :
    Except Err (Option ℝ) :=
  match word2vecSimilarity id2token kv (wrapped topics) with
  | .error e => .error e
  | .ok (cs, _, _) => .ok (arithmeticMean (cs.map fun c => c.1))

/-- Models the keyword arguments of the Word2Vec model trained by `accumulate`,
`gensim/topic_coherence/text_analysis.py` 639-644: values are integers. -/
def w2vKwargs (kwargs : PyDict String Int) (windowSize : Option Int) : PyDict String Int :=
  let kw := match windowSize with
    | none => kwargs
    | some s => PyDict.set kwargs "window" s
  let kw := PyDict.set kw "min_count" (PyDict.getD kw "min_count" 1)
  let kw := PyDict.set kw "sg" (PyDict.getD kw "sg" 1)
  PyDict.set kw "hs" (PyDict.getD kw "hw" 0)

/-- Models `accumulate`, `gensim/topic_coherence/text_analysis.py` 634-653: `none` is the model that was given,
`some kw` a new model trained with these arguments. -/
def w2vAccumulate (given : Bool) (kwargs : PyDict String Int) (windowSize : Option Int) :
    Option (PyDict String Int) :=
  if given then none else some (w2vKwargs kwargs windowSize)

end W2V

end Verif.Coherence.Fail
