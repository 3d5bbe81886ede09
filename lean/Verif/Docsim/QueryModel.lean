import Verif.Matutils.SparseModel
import Verif.Py.Sort

/-!
# Queries against a sharded index (`gensim/similarities/docsim.py`)

The similarities of the query with the rows of a shard are a list of numbers of an ordered field
(`index[query]` before clipping); rounding is not modelled.  `srt` and `part` are `np.argsort` and
`np.argpartition`, whose order of ties is unspecified.
-/

namespace Verif.Docsim
open Verif Matutils

variable {K : Type} [Field K] [LinearOrder K] [IsStrictOrderedRing K]

/-- Models `_nlargest`, gensim/similarities/docsim.py 234-255: `heapq.nlargest(n, items, key=abs of
the similarity)`, which is documented as `sorted(items, key=key, reverse=True)[:n]`. -/
def nlargest (n : Int) (items : List (Nat × K)) : List (Nat × K) :=
  (pySort (fun p q => decide (|q.2| ≤ |p.2|)) items).take n.toNat

/-- Models `convert` with the offsets of the shards, gensim/similarities/docsim.py 554-557, over the
results of the shards in order; the first components are the shard lengths. -/
def convertAll : Nat → List (Nat × List (Nat × K)) → List (List (Nat × K))
  | _, [] => []
  | off, (len, doc) :: rest =>
    (doc.map fun p => (p.1 + off, p.2)) :: convertAll (off + len) rest

/-- Models the answer of one shard to a single query with `num_best` set, gensim/interfaces.py
337-353. -/
def shardBest (srt : List K → List Nat) (part : List K → Nat → List Nat) (eps : K) (n : Int)
    (sims : List K) : List (Nat × K) := full2sparseClipped srt part eps sims n

/-- Models `Similarity.__getitem__` for a single document with `num_best` set,
gensim/similarities/docsim.py 554-564; `shards` gives the length of every shard and the similarities
of the query with its rows. -/
def queryBest (srt : List K → List Nat) (part : List K → Nat → List Nat) (eps : K) (n : Int)
    (shards : List (Nat × List K)) : List (Nat × K) :=
  nlargest n (convertAll 0 (shards.map fun s => (s.1, shardBest srt part eps n s.2))).flatten

/-- Models `Similarity.__getitem__` for a single document without `num_best`,
gensim/similarities/docsim.py 547-550: `numpy.hstack` of nothing raises `ValueError` (`none`). -/
def queryAll (shards : List (Nat × List K)) : Option (List K) :=
  if shards.isEmpty then none else some (shards.map fun s => s.2).flatten

/-- Python's `zip(*results)`. -/
def zipStar {α : Type} : List (List α) → List (List α)
  | [] => []
  | [r] => r.map fun x => [x]
  | r :: r' :: rs => List.zipWith List.cons r (zipStar (r' :: rs))

/-- The answers of one shard to the documents of a corpus, converted, gensim/similarities/docsim.py
568-570. -/
def convertCorpus : Nat → List (Nat × List (List (Nat × K))) → List (List (List (Nat × K)))
  | _, [] => []
  | off, (len, docs) :: rest =>
    (docs.map fun doc => doc.map fun p => (p.1 + off, p.2)) :: convertCorpus (off + len) rest

/-- Models `Similarity.__getitem__` for a corpus with `num_best` set, gensim/similarities/docsim.py
566-574; `shards` gives the length of every shard and, for every query document, its similarities
with the rows of the shard. -/
def queryCorpusBest (srt : List K → List Nat) (part : List K → Nat → List Nat) (eps : K) (n : Int)
    (shards : List (Nat × List (List K))) : List (List (Nat × K)) :=
  (zipStar (convertCorpus 0 (shards.map fun s => (s.1, s.2.map (shardBest srt part eps n))))).map
    fun parts => nlargest n parts.flatten

end Verif.Docsim
