import Verif.Utils.ChunkModel

/-!
# `Word2Vec.score`

`gensim/models/word2vec.py:1676-1771`.  The calling thread cuts the sentences into jobs, puts them into
a bounded queue, and collects the workers' reports from a second bounded queue; the workers write the
score of every sentence into one shared array.  The threads are a transition system: one step of the
calling thread (`mainStep`, deterministic) or of any one worker (`workerStep`), in any order.

Simplifications: what `score_sentence_sg` / `score_sentence_cbow` compute is the parameter `score`
(a function of the sentence: the model is only read); logging and the report timing are left out.
-/

namespace Verif.Score

variable {α S : Type}

/-- A job: sentences with their numbers (`gensim/models/word2vec.py:1727`, `enumerate(sentences)`). -/
abbrev Job (α : Type) := List (Nat × α)

/-- The arguments of `score` and the settings of the model it uses
(`gensim/models/word2vec.py:1676-1723`).  `zero` is the content of a fresh array. -/
structure Cfg (α S : Type) where
  sentences : List α
  score : α → S
  zero : S
  total : Nat
  chunk : Nat
  workers : Nat
  queueFactor : Nat

/-- `job_queue = Queue(maxsize=queue_factor * self.workers)`: `gensim/models/word2vec.py:1714`. -/
def Cfg.jobCap (c : Cfg α S) : Nat := c.queueFactor * c.workers

/-- `progress_queue = Queue(maxsize=(queue_factor + 1) * self.workers)`:
`gensim/models/word2vec.py:1715`. -/
def Cfg.progCap (c : Cfg α S) : Nat := (c.queueFactor + 1) * c.workers

/-- `enumerate(sentences)`. -/
def enum (l : List α) : List (Nat × α) := l.zipIdx.map fun p => (p.2, p.1)

/-- `utils.grouper(enumerate(sentences), chunksize)`: `gensim/models/word2vec.py:1727`. -/
def Cfg.jobs (c : Cfg α S) : List (Job α) := Chunk.chunks c.chunk (enum c.sentences)

/-- Whether `put` on a queue of this bound goes through now; bound 0 means unbounded, as in Python's
`queue.Queue`. -/
def room {β : Type} (q : List β) (cap : Nat) : Bool := cap = 0 || q.length < cap

/-- Where the calling thread is: `gensim/models/word2vec.py:1730-1763`. -/
inductive Main (α : Type)
  /-- before `next(jobs_source)` (1732) -/
  | pull
  /-- before `job_queue.put(items)` (1741) -/
  | put (job : Job α)
  /-- before putting the remaining `None`s (1744-1746) -/
  | sentinels (k : Nat)
  /-- at the head of the `while` (1748) -/
  | drain
  /-- after the loop (1765) -/
  | finished
  /-- UnboundLocalError: `job_no` read at 1743 before it was assigned -/
  | crashed

/-- Where a worker is: `gensim/models/word2vec.py:1696-1710`. -/
inductive Worker (α : Type)
  /-- before `job_queue.get()` (1697) -/
  | idle
  /-- in the `for` loop, with the rest of the job and `ns` (1701-1709) -/
  | busy (rest : Job α) (ns : Nat)
  /-- before `progress_queue.put(ns)` (1710) -/
  | report (ns : Nat)
  /-- after `break` (1699) -/
  | exited

/-- The shared state and the local variables of the calling thread. -/
structure St (α S : Type) where
  main : Main α
  src : List (Job α)
  nextNo : Nat
  jobNo : Option Nat
  pushDone : Bool
  doneJobs : Nat
  count : Nat
  jobQ : List (Option (Job α))
  progQ : List Nat
  scores : List S
  workers : List (Worker α)

/-- The state when the loop is entered: `gensim/models/word2vec.py:1712-1730`. -/
def start (c : Cfg α S) : St α S where
  main := .pull
  src := c.jobs
  nextNo := 0
  jobNo := none
  pushDone := false
  doneJobs := 0
  count := 0
  jobQ := []
  progQ := []
  scores := List.replicate c.total c.zero
  workers := List.replicate c.workers .idle

/-- One step of the calling thread; `none` if it is blocked or has ended:
`gensim/models/word2vec.py:1730-1763`. -/
def mainStep (c : Cfg α S) (s : St α S) : Option (St α S) :=
  match s.main with
  | .pull =>
    match s.src with
    | [] =>
      match s.jobNo with
      | none => some { s with main := .crashed }
      | some _ => some { s with main := .sentinels c.workers }
    | job :: rest =>
      if ((s.nextNo : Int) - 1) * c.chunk > c.total then
        some { s with
          src := rest, nextNo := s.nextNo + 1, jobNo := some (s.nextNo - 1)
          main := .sentinels c.workers }
      else
        some { s with
          src := rest, nextNo := s.nextNo + 1, jobNo := some s.nextNo, main := .put job }
  | .put job =>
    if room s.jobQ c.jobCap then some { s with jobQ := s.jobQ ++ [some job], main := .drain } else none
  | .sentinels 0 => some { s with pushDone := true, main := .drain }
  | .sentinels (k + 1) =>
    if room s.jobQ c.jobCap then some { s with jobQ := s.jobQ ++ [none], main := .sentinels k } else none
  | .drain =>
    if s.doneJobs < s.jobNo.getD 0 + 1 ∨ s.pushDone = false then
      match s.progQ with
      | ns :: q => some { s with progQ := q, count := s.count + ns, doneJobs := s.doneJobs + 1 }
      | [] => if s.pushDone then none else some { s with main := .pull }
    else some { s with main := .finished }
  | .finished => none
  | .crashed => none

/-- One step of a worker, giving the new shared state and the worker's new state; `none` if it is
blocked or has ended: `gensim/models/word2vec.py:1696-1710`. -/
def workerStep (c : Cfg α S) (s : St α S) : Worker α → Option (St α S × Worker α)
  | .idle =>
    match s.jobQ with
    | [] => none
    | some job :: q => some ({ s with jobQ := q }, .busy job 0)
    | none :: q => some ({ s with jobQ := q }, .exited)
  | .busy [] ns => some (s, .report ns)
  | .busy ((id, x) :: rest) ns =>
    if c.total ≤ id then some (s, .report ns)
    else some ({ s with scores := s.scores.set id (c.score x) }, .busy rest (ns + 1))
  | .report ns =>
    if room s.progQ c.progCap then some ({ s with progQ := s.progQ ++ [ns] }, .idle) else none
  | .exited => none

/-- One step of the whole: the calling thread or any worker. -/
inductive Step (c : Cfg α S) (s : St α S) : St α S → Prop
  | main {t : St α S} (h : mainStep c s = some t) : Step c s t
  | worker {t : St α S} {a b : List (Worker α)} {w w' : Worker α} (hw : s.workers = a ++ w :: b)
      (h : workerStep c s w = some (t, w')) : Step c s { t with workers := a ++ w' :: b }

/-- The states some schedule leads to. -/
inductive Reach (c : Cfg α S) : St α S → Prop
  | start : Reach c (start c)
  | step {s t : St α S} (h : Reach c s) (hs : Step c s t) : Reach c t

/-- `return sentence_scores[:sentence_count]`: `gensim/models/word2vec.py:1771`. -/
def result (s : St α S) : List S := s.scores.take s.count

/-- The tests before any of it: `gensim/models/word2vec.py:1683-1690`. -/
def scoreGuard (vocabSize : Nat) (hs : Bool) : Except String Unit :=
  if vocabSize = 0 then .error "RuntimeError"
  else if !hs then .error "RuntimeError"
  else .ok ()

end Verif.Score
