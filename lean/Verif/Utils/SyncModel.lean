/-!
# Model of `synchronous` (`gensim/utils.py`) and of the counters of the distributed dispatchers
(`gensim/models/lda_dispatcher.py`, `lsi_dispatcher.py`) under concurrent calls and repeated training

An object has a state `σ`; a call of a synchronous method is a list of atomic steps on the state and on the call's
local variables `L`.  Threads take turns in any order.
-/

namespace Verif.Sync

variable {σ L : Type}

/-- an atomic step of a method body; the flag is false when the step raises -/
abbrev Step (σ L : Type) := σ × L → (σ × L) × Bool

/-- a method body -/
abbrev Call (σ L : Type) := List (Step σ L)

/-- a thread: the calls it has still to make, and the rest of the body it is in, with its local variables -/
structure Thread (σ L : Type) where
  queue : List (Call σ L)
  active : Option (Call σ L × L)

/-- the object's state, the thread that holds the lock, the threads, and the calls in the order in which they acquired
the lock (for the proofs only) -/
structure World (σ L : Type) where
  state : σ
  holder : Option Nat
  threads : Nat → Thread σ L
  order : List (Nat × Call σ L)

/-- thread `i` replaced -/
def World.set (w : World σ L) (i : Nat) (t : Thread σ L) : Nat → Thread σ L := fun j => if j = i then t else w.threads j

/-- models utils.py:98-106 `_synchronizer`: the next step of thread `i`: acquiring the lock (`with tlock`, blocks while
it is held: `none`), a step of the body, or releasing the lock at the end of the body, also when it raised -/
def step (l0 : L) (i : Nat) (w : World σ L) : Option (World σ L) :=
  match (w.threads i).active with
  | none =>
    match (w.threads i).queue with
    | [] => none
    | c :: q =>
      if w.holder = none then
        some ⟨w.state, some i, w.set i ⟨q, some (c, l0)⟩, w.order ++ [(i, c)]⟩
      else none
  | some (rest, l) =>
    match rest with
    | [] => some ⟨w.state, none, w.set i ⟨(w.threads i).queue, none⟩, w.order⟩
    | s :: rest =>
      let r := s (w.state, l)
      some ⟨r.1.1, w.holder, w.set i ⟨(w.threads i).queue, some (if r.2 then rest else [], r.1.2)⟩, w.order⟩

/-- the same without the decorator: nothing is acquired (not in the code; shows what the decorator is for) -/
def stepFree (l0 : L) (i : Nat) (w : World σ L) : Option (World σ L) :=
  match (w.threads i).active with
  | none =>
    match (w.threads i).queue with
    | [] => none
    | c :: q => some ⟨w.state, none, w.set i ⟨q, some (c, l0)⟩, w.order ++ [(i, c)]⟩
  | some (rest, l) =>
    match rest with
    | [] => some ⟨w.state, none, w.set i ⟨(w.threads i).queue, none⟩, w.order⟩
    | s :: rest =>
      let r := s (w.state, l)
      some ⟨r.1.1, none, w.set i ⟨(w.threads i).queue, some (if r.2 then rest else [], r.1.2)⟩, w.order⟩

/-- any number of steps of any threads -/
inductive Steps (f : Nat → World σ L → Option (World σ L)) : World σ L → World σ L → Prop
  | refl (w) : Steps f w w
  | tail {w v u : World σ L} (i : Nat) : Steps f w v → f i v = some u → Steps f w u

/-- the beginning: nobody holds the lock -/
def start (s : σ) (queues : Nat → List (Call σ L)) : World σ L := ⟨s, none, fun i => ⟨queues i, none⟩, []⟩

/-- models lda_dispatcher.py:135-137, lsi_dispatcher.py:126-128, lda_worker.py:106 and lsi_worker.py:99: `initialize`
replaces the lock by a new one that nobody holds, without acquiring the old one.  (Only up to the next release, which
the model does not tell apart from one of the new lock.) -/
def reinit (fresh : σ) (w : World σ L) : World σ L := ⟨fresh, none, w.threads, w.order⟩

/-! ## `_jobsdone` -/

/-- models lda_dispatcher.py:270 (lsi_dispatcher.py:251) `self._jobsdone += 1` in the synchronous `jobdone`: read, then
write -/
def jobdone : Call Nat Nat := [fun p => ((p.1, p.1), true), fun p => ((p.2 + 1, p.2), true)]

/-! ## Repeated training -/

/-- the counters of the dispatcher, the jobs of this training that are not done, and the jobs of earlier trainings that
workers are still busy with -/
structure Disp where
  done : Nat
  received : Nat
  pending : Nat
  stale : Nat
deriving DecidableEq

inductive Op where
  | init
  | putjob
  | finish
  | finishStale
deriving DecidableEq

/-- models lda_dispatcher.py:133-137 `initialize` (the queue is replaced and the counters are set to zero; `running` jobs
are in the hands of workers, which nobody stops), 200-203 `putjob`, 252-272 `jobdone`, called by a worker whatever
training its job came from (lda_worker.py:135-137); the same in lsi_dispatcher.py:124-128, 180-183, 233-253 and
lsi_worker.py.  `none`: not possible in this state. -/
def dispStep (running : Nat) (d : Disp) : Op → Option Disp
  | .init => if running ≤ d.pending then some ⟨0, 0, 0, d.stale + running⟩ else none
  | .putjob => some { d with received := d.received + 1, pending := d.pending + 1 }
  | .finish => if 0 < d.pending then some { d with done := d.done + 1, pending := d.pending - 1 } else none
  | .finishStale => if 0 < d.stale then some { d with done := d.done + 1, stale := d.stale - 1 } else none

/-- a history of calls; every `initialize` comes with the number of jobs the workers are busy with -/
def dispRun : List (Op × Nat) → Disp → Option Disp
  | [], d => some d
  | o :: os, d => (dispStep o.2 d o.1).bind (dispRun os)

/-- models lda_dispatcher.py:221 (lsi_dispatcher.py:201) `while self._jobsdone < self._jobsreceived`: `getstate` goes on -/
def getstateReturns (d : Disp) : Bool := !decide (d.done < d.received)

end Verif.Sync
