import Verif.Lda.DispatcherModel

/-!
# Model of distributed training with failing and dying workers: `gensim/models/lda_dispatcher.py:90-292`
with `gensim/models/lda_worker.py:81-207`, `gensim/models/lsi_dispatcher.py:84-274` with
`gensim/models/lsi_worker.py:76-181`

The transition system of `DispatcherModel` extended by the request loops of the workers (each asks for one
job and ends with it, `jobdone` starts the next one), their `finished` flags, jobs whose processing raises an
exception, workers whose process dies, and the exceptions the client gets from calls to dead workers.
`requestjob` and `jobdone` are one-way calls: an exception inside them is seen by nobody.
Simplification: workers do not come back, and messages between living processes are not lost.
-/

namespace Verif.Lda.Dispatch

/-- The state of dispatcher, queue and workers. -/
structure FSt (J : Type) where
  script : List (Op J)
  phase : Phase J
  /-- `self.jobs` -/
  queue : List J
  /-- jobs taken by a worker and not yet processed -/
  held : List (Nat × J)
  /-- per processed job whose `jobdone` call has not arrived: the worker -/
  pending : List Nat
  /-- `_jobsreceived` -/
  received : Nat
  /-- `_jobsdone` -/
  done : Nat
  /-- per worker: the jobs in its state -/
  stats : List (List J)
  /-- results of the completed `getstate` calls -/
  results : List (List J)
  /-- per worker: does its process run? -/
  alive : List Bool
  /-- per worker: the request loops that are asking for a job -/
  asking : List Nat
  /-- per worker: `self.finished` -/
  finished : List Bool
  /-- how many jobs have been taken from the queue and will never be reported done -/
  lost : Nat
  /-- did a call of the client raise an exception?  The client makes no further calls then. -/
  raised : Bool
deriving DecidableEq

variable {J : Type}

/-- One atomic step; `pings` says whether `getstate` checks its workers while it waits (LDA does, LSI does
not). -/
inductive FStep (pings : Bool) : FSt J → FSt J → Prop where
  /-- `putjob`: `self._jobsreceived += 1` (lda_dispatcher.py:199, lsi_dispatcher.py:191) -/
  | putCount (s : FSt J) (j : J) (r : List (Op J)) : s.raised = false → s.phase = .idle → s.script = .put j :: r →
      FStep pings s { s with received := s.received + 1, phase := .putting }
  /-- `self.jobs.put(job)` (lda_dispatcher.py:200, lsi_dispatcher.py:192) -/
  | putQueue (s : FSt J) (j : J) (r : List (Op J)) : s.raised = false → s.phase = .putting → s.script = .put j :: r →
      FStep pings s { s with queue := s.queue ++ [j], script := r, phase := .idle }
  /-- `reset` begins (lda_dispatcher.py:236-245, lsi_dispatcher.py:224-226) -/
  | resetBegin (s : FSt J) (r : List (Op J)) : s.raised = false → s.phase = .idle → s.script = .reset :: r →
      FStep pings s { s with phase := .resetting 0 }
  /-- `worker.reset(state); worker.requestjob()` (lda_dispatcher.py:247-248, lda_worker.py:187-201,
      lsi_dispatcher.py:228-229, lsi_worker.py:171-175): one more request loop -/
  | resetWorker (s : FSt J) (k : Nat) : s.raised = false → s.phase = .resetting k → k < s.stats.length →
      s.alive[k]? = some true →
      FStep pings s { s with stats := s.stats.set k [], phase := .resetting (k + 1), finished := s.finished.set k false
                             asking := s.asking.modify k (· + 1) }
  /-- the call raises when the worker is dead -/
  | resetRaise (s : FSt J) (k : Nat) : s.raised = false → s.phase = .resetting k → s.alive[k]? = some false →
      FStep pings s { s with raised := true }
  /-- `self._jobsdone = 0; self._jobsreceived = 0` (lda_dispatcher.py:249-250, lsi_dispatcher.py:230-231) -/
  | resetEnd (s : FSt J) (r : List (Op J)) : s.raised = false → s.phase = .resetting s.stats.length →
      s.script = .reset :: r →
      FStep pings s { s with done := 0, received := 0, script := r, phase := .idle }
  /-- `getstate`: the loop `while self._jobsdone < self._jobsreceived` ends (lda_dispatcher.py:217,
      lsi_dispatcher.py:207) -/
  | getBegin (s : FSt J) (r : List (Op J)) : s.raised = false → s.phase = .idle → s.script = .getstate :: r →
      ¬ s.done < s.received → FStep pings s { s with phase := .collecting 0 [] }
  /-- inside that loop `worker.ping()` raises when a worker is dead (lda_dispatcher.py:220-224; the LSI
      dispatcher has no such check) -/
  | pingRaise (s : FSt J) (r : List (Op J)) (k : Nat) : pings = true → s.raised = false → s.phase = .idle →
      s.script = .getstate :: r → s.done < s.received → s.alive[k]? = some false →
      FStep pings s { s with raised := true }
  /-- `result.merge(worker.getstate())` (lda_dispatcher.py:227-230, lda_worker.py:169-183,
      lsi_dispatcher.py:215-219, lsi_worker.py:155-167) -/
  | getWorker (s : FSt J) (k : Nat) (acc : List J) (l : List J) : s.raised = false → s.phase = .collecting k acc →
      s.stats[k]? = some l → s.alive[k]? = some true →
      FStep pings s { s with phase := .collecting (k + 1) (acc ++ l), finished := s.finished.set k true }
  /-- the call raises when the worker is dead -/
  | getRaise (s : FSt J) (k : Nat) (acc : List J) : s.raised = false → s.phase = .collecting k acc →
      s.alive[k]? = some false → FStep pings s { s with raised := true }
  /-- `return result` (lda_dispatcher.py:233, lsi_dispatcher.py:221) -/
  | getEnd (s : FSt J) (acc : List J) (r : List (Op J)) : s.raised = false →
      s.phase = .collecting s.stats.length acc → s.script = .getstate :: r →
      FStep pings s { s with results := s.results ++ [acc], script := r, phase := .idle }
  /-- a request loop of worker `w` gets a job: `self.dispatcher.getjob(self.myid)` (lda_worker.py:131-136,
      lsi_worker.py:124-129) -/
  | take (s : FSt J) (w a : Nat) (j : J) (q : List J) : w < s.stats.length → s.alive[w]? = some true →
      s.asking[w]? = some (a + 1) → s.queue = j :: q →
      FStep pings s { s with queue := q, held := s.held ++ [(w, j)], asking := s.asking.set w a }
  /-- a request loop ends because the worker is finished (lda_worker.py:131, 141-142; lsi_worker.py:124, 134) -/
  | stop (s : FSt J) (w a : Nat) : s.alive[w]? = some true → s.finished[w]? = some true →
      s.asking[w]? = some (a + 1) → FStep pings s { s with asking := s.asking.set w a }
  /-- worker `w` processes it: `self.processjob(job)` (lda_worker.py:139, 144-160; lsi_worker.py:132, 137-151) -/
  | process (s : FSt J) (a : List (Nat × J)) (w : Nat) (j : J) (b : List (Nat × J)) (l : List J) :
      s.alive[w]? = some true → s.held = a ++ (w, j) :: b → s.stats[w]? = some l →
      FStep pings s { s with held := a ++ b, stats := s.stats.set w (l ++ [j]), pending := s.pending ++ [w] }
  /-- the dispatcher executes `jobdone`: `self._jobsdone += 1`, and the worker, if it lives, asks for
      another job (lda_dispatcher.py:255-272, lsi_dispatcher.py:236-254) -/
  | jobdone (s : FSt J) (a : List Nat) (w : Nat) (b : List Nat) : s.pending = a ++ w :: b →
      FStep pings s { s with pending := a ++ b, done := s.done + 1
                             asking := if s.alive[w]? = some true then s.asking.modify w (· + 1) else s.asking }
  /-- `self.processjob(job)` raises: `jobdone` is not called and the request loop ends
      (lda_worker.py:139-140, lsi_worker.py:132-133); the job may have left traces in the worker's state -/
  | fail (s : FSt J) (a : List (Nat × J)) (w : Nat) (j : J) (b : List (Nat × J)) (l traces : List J) :
      s.alive[w]? = some true → s.held = a ++ (w, j) :: b → s.stats[w]? = some l →
      FStep pings s { s with held := a ++ b, stats := s.stats.set w (l ++ traces), lost := s.lost + 1 }
  /-- the process of worker `w` dies, and with it its state, its request loops and the jobs it holds -/
  | die (s : FSt J) (w : Nat) : s.alive[w]? = some true →
      FStep pings s { s with alive := s.alive.set w false, asking := s.asking.set w 0, stats := s.stats.set w []
                             held := s.held.filter (fun p => decide (p.1 ≠ w))
                             lost := s.lost + (s.held.filter (fun p => decide (p.1 = w))).length }
  /-- the `jobdone` call of a dead worker never arrives -/
  | loseReport (s : FSt J) (a : List Nat) (w : Nat) (b : List Nat) : s.alive[w]? = some false →
      s.pending = a ++ w :: b → FStep pings s { s with pending := a ++ b, lost := s.lost + 1 }

/-- The freshly initialized dispatcher with `n` workers (lda_dispatcher.py:134-155, lda_worker.py:106-111,
    lsi_dispatcher.py:126-148, lsi_worker.py:99-104). -/
def finit (n : Nat) (script : List (Op J)) : FSt J :=
  ⟨script, .idle, [], [], [], 0, 0, List.replicate n [], [], List.replicate n true, List.replicate n 0,
    List.replicate n false, 0, false⟩

/-- Executions. -/
inductive FRuns (pings : Bool) : FSt J → FSt J → Prop where
  | refl (s : FSt J) : FRuns pings s s
  | step (s t u : FSt J) : FRuns pings s t → FStep pings t u → FRuns pings s u

end Verif.Lda.Dispatch
