import Verif.W2V.TrainModel

/-!
Failures in the threads of `_train_epoch`: an exception in a worker thread or in the thread that reads the corpus ends
that thread (with a traceback on standard error) and nothing else.
-/

namespace Verif.W2V

/-- A thread ends with an exception. -/
inductive Fails {J : Type} : Epoch J → Epoch J → Prop
  /-- models word2vec.py:1127-1130: `on_batch_begin` or `_do_train_job` raises; the worker is gone, with its job and
  without having put anything into the progress queue -/
  | training {s a b j} : s.workers = a ++ .busy j :: b → Fails s { s with workers := a ++ b }
  /-- models word2vec.py:1132-1133: `on_batch_end` raises -/
  | batchEnd {s a b j n} : s.workers = a ++ .trained j n :: b → Fails s { s with workers := a ++ b }
  /-- models word2vec.py:1173-1209: iterating over the corpus raises before the end markers are put; the producer puts
  nothing more -/
  | corpus {s} : none ∈ s.rest → Fails s { s with rest := [] }

/-- A step of any thread, or a failure. -/
inductive FStep {J : Type} (cj cp : Nat) (raw : J → Nat) : Epoch J → Epoch J → Prop
  | ok {s t} : EStep cj cp raw s t → FStep cj cp raw s t
  | fails {s t} : Fails s t → FStep cj cp raw s t

end Verif.W2V
