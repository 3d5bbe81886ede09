/-
Model of the distributed dispatcher and its workers: gensim/models/lda_dispatcher.py:90-292 with
gensim/models/lda_worker.py:81-207, and gensim/models/lsi_dispatcher.py:84-274 with
gensim/models/lsi_worker.py:76-181 (the two pairs have the same control flow), as a transition system.

The client (one, sequential) executes a script of `reset` / `putjob` / `getstate` calls; workers take
jobs, process them and report `jobdone` at arbitrary times.  A worker's statistics are represented by
the list of jobs it has processed since its last reset, and merging states by appending those lists.
Simplifications: remote calls do not fail (no lost messages, no dying workers; see `FaultModel` for those); the `finished` flag
and the one-second timeouts only stop workers from asking for jobs, so any worker may take a job at any
time here; a worker may have several request loops (each `reset` starts one), which is allowed here.
-/
import Mathlib.Data.List.Basic
import Mathlib.Data.List.Perm.Basic

namespace Verif.Lda.Dispatch

/-- A call of the client. -/
inductive Op (J : Type) where
  | reset
  | put (j : J)
  | getstate
deriving DecidableEq

/-- Where the client's current call is. -/
inductive Phase (J : Type) where
  /-- between calls -/
  | idle
  /-- in `putjob`, after `self._jobsreceived += 1` -/
  | putting
  /-- in `reset`, about to reset worker `k` -/
  | resetting (k : Nat)
  /-- in `getstate`, about to ask worker `k` for its state, `acc` merged so far -/
  | collecting (k : Nat) (acc : List J)
deriving DecidableEq

/-- The state of dispatcher, queue and workers. -/
structure St (J : Type) where
  script : List (Op J)
  phase : Phase J
  /-- `self.jobs` -/
  queue : List J
  /-- jobs taken by a worker and not yet processed -/
  held : List (Nat × J)
  /-- processed jobs whose `jobdone` call has not arrived -/
  pending : Nat
  /-- `_jobsreceived` -/
  received : Nat
  /-- `_jobsdone` -/
  done : Nat
  /-- per worker: the jobs in its state -/
  stats : List (List J)
  /-- results of the completed `getstate` calls -/
  results : List (List J)
deriving DecidableEq

variable {J : Type}

/-- One atomic step. -/
inductive Step : St J → St J → Prop where
  /-- `putjob`: `self._jobsreceived += 1` (lda_dispatcher.py:199) -/
  | putCount (s : St J) (j : J) (r : List (Op J)) : s.phase = .idle → s.script = .put j :: r →
      Step s { s with received := s.received + 1, phase := .putting }
  /-- `self.jobs.put(job)` (lda_dispatcher.py:200), possibly much later when the queue was full -/
  | putQueue (s : St J) (j : J) (r : List (Op J)) : s.phase = .putting → s.script = .put j :: r →
      Step s { s with queue := s.queue ++ [j], script := r, phase := .idle }
  /-- `reset` begins (lda_dispatcher.py:238-252) -/
  | resetBegin (s : St J) (r : List (Op J)) : s.phase = .idle → s.script = .reset :: r →
      Step s { s with phase := .resetting 0 }
  /-- `worker.reset(state); worker.requestjob()` (lda_dispatcher.py:248-250; lda_worker.py:182-199:
      the worker's sufficient statistics become 0) -/
  | resetWorker (s : St J) (k : Nat) : s.phase = .resetting k → k < s.stats.length →
      Step s { s with stats := s.stats.set k [], phase := .resetting (k + 1) }
  /-- `self._jobsdone = 0; self._jobsreceived = 0` (lda_dispatcher.py:251-252) -/
  | resetEnd (s : St J) (r : List (Op J)) : s.phase = .resetting s.stats.length →
      s.script = .reset :: r →
      Step s { s with done := 0, received := 0, script := r, phase := .idle }
  /-- `getstate`: the loop `while self._jobsdone < self._jobsreceived` ends (lda_dispatcher.py:217) -/
  | getBegin (s : St J) (r : List (Op J)) : s.phase = .idle → s.script = .getstate :: r →
      ¬ s.done < s.received → Step s { s with phase := .collecting 0 [] }
  /-- `result = workers[0].getstate()` / `result.merge(worker.getstate())` (lda_dispatcher.py:227-231) -/
  | getWorker (s : St J) (k : Nat) (acc : List J) (l : List J) : s.phase = .collecting k acc →
      s.stats[k]? = some l → Step s { s with phase := .collecting (k + 1) (acc ++ l) }
  /-- `return result` (lda_dispatcher.py:233) -/
  | getEnd (s : St J) (acc : List J) (r : List (Op J)) : s.phase = .collecting s.stats.length acc →
      s.script = .getstate :: r →
      Step s { s with results := s.results ++ [acc], script := r, phase := .idle }
  /-- worker `w` gets a job: `self.dispatcher.getjob(self.myid)` (lda_worker.py:131) -/
  | take (s : St J) (w : Nat) (j : J) (q : List J) : w < s.stats.length → s.queue = j :: q →
      Step s { s with queue := q, held := s.held ++ [(w, j)] }
  /-- worker `w` processes it: `self.processjob(job)` (lda_worker.py:139, 143-162) -/
  | process (s : St J) (a : List (Nat × J)) (w : Nat) (j : J) (b : List (Nat × J)) (l : List J) :
      s.held = a ++ (w, j) :: b → s.stats[w]? = some l →
      Step s { s with held := a ++ b, stats := s.stats.set w (l ++ [j]), pending := s.pending + 1 }
  /-- the dispatcher executes `jobdone`: `self._jobsdone += 1` (lda_dispatcher.py:270) -/
  | jobdone (s : St J) (p : Nat) : s.pending = p + 1 →
      Step s { s with pending := p, done := s.done + 1 }

/-- The freshly initialized dispatcher with `n` workers (lda_dispatcher.py:134-155). -/
def init (n : Nat) (script : List (Op J)) : St J :=
  ⟨script, .idle, [], [], 0, 0, 0, List.replicate n [], []⟩

/-- States reachable while the client executes `script`. -/
inductive Reach (n : Nat) (script : List (Op J)) : St J → Prop where
  | start : Reach n script (init n script)
  | step (s t : St J) : Reach n script s → Step s t → Reach n script t

/-- The calls of one distributed `LsiModel.add_documents(corpus)`, whose chunks are `jobs`
    (lsimodel.py:486-521).  Its last call's result becomes `self.projection`. -/
def lsiAdd (jobs : List J) : List (Op J) := .reset :: jobs.map .put ++ [.getstate]

/-- The chunks behind `self.projection` after serial `add_documents` calls: each chunk is merged into
    the existing projection (lsimodel.py:506-515). -/
def lsiSerial (calls : List (List J)) : List J := calls.foldl (fun proj jobs => proj ++ jobs) []

end Verif.Lda.Dispatch
