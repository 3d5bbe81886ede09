/-
Model of one pass of `LdaMulticore.update` (gensim/models/ldamulticore.py:187-316) with its worker
processes (`worker_e_step`, 319-345), as a transition system.

A chunk is a list of documents.  Statistics are represented by the list of chunks they come from, so a
statement about lists of chunks is a statement about which chunks' statistics were used.  Workers,
queues and the main process interleave arbitrarily; `Queue.empty()` may report an empty queue although
a result is on its way (as documented for multiprocessing queues), and a non-blocking `put` may find
the queue full at any time.  All passes have this form: a pass ends only when no job is outstanding.
-/
import Mathlib.Data.List.Basic
import Mathlib.Data.List.Perm.Basic

namespace Verif.Lda.Multicore

/-- Where the main process is (ldamulticore.py:281-310). -/
inductive Phase where
  /-- about to put the next chunk (286-303) -/
  | dispatch
  /-- in the `while` loop of `process_result_queue(force)`; `merged` is `merged_new` (261-277) -/
  | proc (force merged : Bool)
  /-- at `while queue_size[0] > 0` (309) -/
  | wait
  /-- after the loop (311) -/
  | done
deriving DecidableEq

/-- The state of a pass. -/
structure St (D : Type) where
  /-- chunks not yet dispatched -/
  todo : List (List D)
  /-- `job_queue` -/
  jobQ : List (List D)
  /-- chunks being processed by workers -/
  working : List (List D)
  /-- `result_queue` -/
  resultQ : List (List D)
  /-- chunks merged into `other` since its last reset -/
  other : List (List D)
  /-- `queue_size[0]` -/
  queueSize : Nat
  /-- the chunks used by each M-step so far -/
  msteps : List (List (List D))
  phase : Phase
deriving DecidableEq

variable {D : Type}

/-- `other.numdocs`. -/
def docs (l : List (List D)) : Nat := (l.map List.length).sum

/-- The condition for an M-step at the end of `process_result_queue` (ldamulticore.py:273). -/
def wantsMstep (updateafter : Nat) (force merged : Bool) (s : St D) : Bool :=
  (force && merged && decide (s.queueSize = 0)) || decide (docs s.other ≥ updateafter)

/-- One atomic step of the main process or of a worker. -/
inductive Step (updateafter : Nat) : St D → St D → Prop where
  /-- `job_queue.put((chunk_no, chunk, self.state), block=False)` succeeds (292-293), then
      `process_result_queue()` (305) -/
  | put (s : St D) (c : List D) (r : List (List D)) : s.phase = .dispatch → s.todo = c :: r →
      Step updateafter s { s with todo := r, jobQ := s.jobQ ++ [c], queueSize := s.queueSize + 1,
                                  phase := .proc false false }
  /-- `queue.Full`: `process_result_queue()` and try again (300-303) -/
  | full (s : St D) : s.phase = .dispatch → s.todo ≠ [] →
      Step updateafter s { s with phase := .proc false false }
  /-- end of the chunk stream (306) -/
  | dispatched (s : St D) : s.phase = .dispatch → s.todo = [] →
      Step updateafter s { s with phase := .wait }
  /-- `while queue_size[0] > 0: process_result_queue(force=True)` (309-310) -/
  | waitMore (s : St D) : s.phase = .wait → 0 < s.queueSize →
      Step updateafter s { s with phase := .proc true false }
  /-- the loop ends (309) -/
  | finish (s : St D) : s.phase = .wait → s.queueSize = 0 → Step updateafter s { s with phase := .done }
  /-- `other.merge(result_queue.get()); queue_size[0] -= 1; merged_new = True` (268-271) -/
  | merge (s : St D) (f m : Bool) (c : List D) (r : List (List D)) : s.phase = .proc f m →
      s.resultQ = c :: r →
      Step updateafter s { s with resultQ := r, other := s.other ++ [c],
                                  queueSize := s.queueSize - 1, phase := .proc f true }
  /-- `result_queue.empty()` and the M-step condition holds (273-275) -/
  | mstep (s : St D) (f m : Bool) : s.phase = .proc f m → wantsMstep updateafter f m s = true →
      Step updateafter s { s with msteps := s.msteps ++ [s.other], other := [],
                                  phase := if f then .wait else .dispatch }
  /-- `result_queue.empty()` and it does not -/
  | noMstep (s : St D) (f m : Bool) : s.phase = .proc f m → wantsMstep updateafter f m s = false →
      Step updateafter s { s with phase := if f then .wait else .dispatch }
  /-- a worker takes a job: `input_queue.get()` (335) -/
  | take (s : St D) (c : List D) (r : List (List D)) : s.jobQ = c :: r →
      Step updateafter s { s with jobQ := r, working := c :: s.working }
  /-- a worker delivers its statistics: `result_queue.put(worker_lda.state)` (343) -/
  | deliver (s : St D) (a : List (List D)) (c : List D) (b : List (List D)) :
      s.working = a ++ c :: b →
      Step updateafter s { s with working := a ++ b, resultQ := s.resultQ ++ [c] }

/-- The start of a pass over `chunks` (ldamulticore.py:282-285). -/
def start (chunks : List (List D)) : St D := ⟨chunks, [], [], [], [], 0, [], .dispatch⟩

/-- States reachable in a pass over `chunks`, under some schedule. -/
inductive Reach (updateafter : Nat) (chunks : List (List D)) : St D → Prop where
  | start : Reach updateafter chunks (start chunks)
  | step (s t : St D) : Reach updateafter chunks s → Step updateafter s t → Reach updateafter chunks t

end Verif.Lda.Multicore
