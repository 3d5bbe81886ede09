/-!
# Model of chunking: `gensim/utils.py` `chunkize_serial`, `InputQueue`, `chunkize`, and
`gensim/interfaces.py` `TransformedCorpus`

A corpus is the list of documents its iterator yields.
-/

namespace Verif.Chunk

variable {α β : Type}

/-- models utils.py:1158-1169, `chunkize_serial(iterable, chunksize)`: `l` is what the iterator still
has to yield; `take` is `itertools.islice`, which also advances the iterator (`drop`) -/
def chunks (k : Nat) (l : List α) : List (List α) :=
  if h : l.take k = [] then [] else l.take k :: chunks k (l.drop k)
termination_by l.length
decreasing_by
  have h1 : l ≠ [] := by rintro rfl; simp at h
  have h2 : k ≠ 0 := by rintro rfl; simp at h
  have h3 := List.length_pos_iff.mpr h1
  rw [List.length_drop]
  omega

/-! ## The background producer -/

/-- The state of `chunkize` with `maxsize > 0` on a platform with `fork`.  Producer: what is left of
the corpus iterator and whether `run` has returned.  The queue holds chunks and the end marker `None`.
Consumer: the chunks yielded so far and whether the generator has finished. -/
structure QState (α : Type) where
  rest : List α
  prodDone : Bool
  queue : List (Option (List α))
  out : List (List α)
  consDone : Bool
deriving DecidableEq

/-- models utils.py:1298-1302: the queue is empty, the worker is started -/
def qinit (corpus : List α) : QState α := ⟨corpus, false, [], [], false⟩

/-- models utils.py:1205-1224, one turn of `InputQueue.run`; `q.put(..., block=True)` needs room in
the queue (`none`: the producer is blocked or has finished) -/
def produce (k maxsize : Nat) (s : QState α) : Option (QState α) :=
  if s.prodDone then none
  else if s.queue.length < maxsize then
    if s.rest.take k = [] then some { s with prodDone := true, queue := s.queue ++ [none] }
    else some { s with rest := s.rest.drop k, queue := s.queue ++ [some (s.rest.take k)] }
  else none

/-- models utils.py:1303-1307, one turn of the consumer loop; `q.get(block=True)` needs a non-empty
queue (`none`: blocked or finished) -/
def consume (s : QState α) : Option (QState α) :=
  if s.consDone then none
  else match s.queue with
    | [] => none
    | none :: q => some { s with queue := q, consDone := true }
    | some c :: q => some { s with queue := q, out := s.out ++ [c] }

/-- one step of either process, in any order -/
inductive QStep (k maxsize : Nat) : QState α → QState α → Prop
  | produce {s t} : produce k maxsize s = some t → QStep k maxsize s t
  | consume {s t} : consume s = some t → QStep k maxsize s t

/-- the steps when iterating the corpus may raise in the worker: the process dies without putting
the end marker -/
inductive QStepCrash (k maxsize : Nat) : QState α → QState α → Prop
  | step {s t} : QStep k maxsize s t → QStepCrash k maxsize s t
  | crash {s} : s.prodDone = false → QStepCrash k maxsize s { s with prodDone := true }

/-- finitely many steps -/
inductive Steps {σ : Type} (r : σ → σ → Prop) : σ → Nat → σ → Prop
  | refl (s) : Steps r s 0 s
  | tail {s t u n} : Steps r s n t → r t u → Steps r s (n + 1) u

/-! ## Transformed corpora -/

/-- models interfaces.py:172-178, `TransformedCorpus.__iter__`: `one` is `obj[doc]`, `many` is
`obj.__getitem__(chunk, chunksize=None)`; `chunksize = none` stands for `None` or 0 -/
def transformedIter (one : α → β) (many : List α → List β) (chunksize : Option Nat)
    (corpus : List α) : List β :=
  match chunksize with
  | some k => if k = 0 then corpus.map one else ((chunks k corpus).map many).flatten
  | none => corpus.map one

/-- models interfaces.py:203-204, `TransformedCorpus.__getitem__`; `none` is `IndexError` -/
def transformedGet (one : α → β) (corpus : List α) (i : Nat) : Option β := (corpus[i]?).map one

end Verif.Chunk
