import Verif.Docsim.QueryModel
import Verif.Utils.ChunkModel

/-!
# Iterating over an index, and the normalisation switch (`gensim/similarities/docsim.py`)

`Similarity.__iter__` and `Similarity.similarity_by_id` switch off `self.norm` and put it back
afterwards.  A generator runs up to its first `yield` when it is first advanced, and its last line
runs only when it is exhausted, so the switch is modelled as a state that operations change.
-/

namespace Verif.Docsim
open Verif Matutils

/-! ## The normalisation switch -/

/-- What happens to the switch: `query` is `index[query]`; `byId` is `similarity_by_id`; `opened i`
is the first `next` of iterator `i`; `exhausted i` is the `next` of iterator `i` that finds nothing
more; `closed i` is an abandoned iterator (`break`, an exception in the loop body, garbage
collection). -/
inductive NormOp
  | query
  | byId
  | opened (i : Nat)
  | exhausted (i : Nat)
  | closed (i : Nat)
  deriving DecidableEq

/-- `self.norm` (as truth value), the local variable `norm` of every running iterator, and for every
`index[query]` made so far whether the query was normalised. -/
structure NormState where
  norm : Bool
  saved : List (Nat × Bool)
  log : List Bool
  deriving DecidableEq

/-- Models the effect on `self.norm` of `__getitem__` (gensim/similarities/docsim.py 537-540:
`shard.normalize = self.norm`), `similarity_by_id` (646-650) and `__iter__` (662-672).  An abandoned
generator never reaches line 672. -/
def normStep (s : NormState) : NormOp → NormState
  | .query => { s with log := s.log ++ [s.norm] }
  | .byId => s
  | .opened i => { s with norm := false, saved := (i, s.norm) :: s.saved }
  | .exhausted i =>
    match s.saved.lookup i with
    | some b => { s with norm := b, saved := s.saved.filter fun p => p.1 != i }
    | none => s
  | .closed i => { s with saved := s.saved.filter fun p => p.1 != i }

/-- A history of operations. -/
def normRun (s : NormState) (ops : List NormOp) : NormState := ops.foldl normStep s

/-! ## What an iteration yields -/

/-- Models `index[chunk]` for a one-row matrix, gensim/similarities/docsim.py 537-564 with
gensim/interfaces.py 337-353: with `num_best` set, a dense shard answers a one-row matrix with a list
of one list of pairs, and `convert` (line 557) raises on unpacking it. -/
def oneRow {V A : Type} (anyDense numBest : Bool) (ans : V → A) (v : V) : Option A :=
  if anyDense && numBest then none else some (ans v)

/-- Models `Similarity.__iter__` over one chunk, gensim/similarities/docsim.py 666-670.  `ans` is the
answer of the index to one row (see `queryBest`, `queryAll`). -/
def iterChunk {V A : Type} (anyDense numBest : Bool) (ans : V → A) (chunk : List V) :
    Option (List A) :=
  if 1 < chunk.length then some (chunk.map ans)
  else chunk.mapM (oneRow anyDense numBest ans)

/-- Models `Similarity.iter_chunks` and `__iter__` over one shard after the other,
gensim/similarities/docsim.py 665-670, 694-703; `shards` gives the rows of every shard. -/
def iterate {V A : Type} (anyDense numBest : Bool) (chunksize : Nat) (ans : V → A)
    (shards : List (List V)) : Option (List A) :=
  ((shards.flatMap fun rows => Chunk.chunks chunksize rows).mapM
    (iterChunk anyDense numBest ans)).map List.flatten

/-! ## A generator as query -/

/-- The query documents an iterator still holds after `next` was called once on it. -/
def afterPeek {D : Type} (docs : List D) : List D := docs.tail

/-- Models `index[generator]` with `num_best` set, gensim/similarities/docsim.py 545-574 with
`utils.is_corpus` (gensim/utils.py 855-875): line 559 takes the first document from the generator
(into a chained iterator that is not used any further) before the lazy results of line 545 ask the
first shard, which consumes what is left; every later shard finds an exhausted generator, takes it for
an empty document and answers `[]`.  `ans` is the (converted) answer of a shard to one document.
Assumes the first document is one `is_corpus` recognises. -/
def queryGenerator {S D K : Type} [Field K] [LinearOrder K] [IsStrictOrderedRing K] (n : Int)
    (ans : S → D → List (Nat × K)) (shards : List S) (docs : List D) : List (List (Nat × K)) :=
  (zipStar (shards.zipIdx.map fun (s, i) =>
    if i = 0 then (afterPeek docs).map (ans s) else [])).map fun parts => nlargest n parts.flatten

end Verif.Docsim
