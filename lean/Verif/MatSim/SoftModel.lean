import Verif.MatSim.Model
import Verif.Termsim.SoftModel
import Verif.KeyedVectors.WmdModel

/-!
# Model of the similarity indexes that compare documents by their words' similarities

`gensim/similarities/docsim.py` `SoftCosineSimilarity` and `WmdSimilarity`, with the query and iteration
code they inherit from `gensim/interfaces.py` `SimilarityABC` (both set `normalize = False`).  Both hold the
documents in a list.  The inner products are those of `Verif.Termsim.SoftModel`, the distances any function
of two documents (`Verif.KeyedVectors.WmdModel` models `wmdistance`).
-/

namespace Verif.MatSim
open Verif Matutils

/-- The kinds of query: a document, a list of documents, a one-dimensional numpy array of positions in the
index and one such position (the latter two are what iterating over the index asks for). -/
inductive SQuery (D : Type)
  | doc (d : D)
  | docs (ds : List D)
  | positions (ps : List Nat)
  | position (p : Nat)

/-- What `self[query]` returns: `zero` is an array with no dimension, the number 0. -/
inductive SAnswer
  | zero
  | ans (a : Answer)

/-- Models the inner products of a list of documents with the index, gensim/similarities/docsim.py 973-976. -/
noncomputable def softRows (S : Nat → Nat → ℝ) (n : Nat) (corpus qs : List Doc) : Except Err SAnswer :=
  match qs.mapM fun q => corpus.mapM fun d => Termsim.innerCC S n q d .yes .yes with
  | some m => .ok (.ans (.mat m))
  | none => .error .assertion

/-- Models `SoftCosineSimilarity.get_similarities`, gensim/similarities/docsim.py 967-979.  `numpy.array()`
without argument raises `TypeError`.  `inner_product` of the empty list is the number 0, and a position that
is not 0 is taken for a document. -/
noncomputable def softSims (S : Nat → Nat → ℝ) (n : Nat) (corpus : List Doc) (q : SQuery Doc) :
    Except Err SAnswer :=
  if corpus = [] then .error .type
  else match q with
    | .doc [] => .ok .zero
    | .doc q =>
      match corpus.mapM fun d => Termsim.innerVC S n q d .yes .yes with
      | some v => .ok (.ans (.vec v))
      | none => .error .assertion
    | .docs [] => .ok .zero
    | .docs qs => softRows S n corpus qs
    | .positions [] => .ok .zero
    | .positions ps =>
      match ps.mapM fun p => corpus[p]? with
      | some qs => softRows S n corpus qs
      | none => .error .index
    | .position 0 => .ok .zero
    | .position (_ + 1) => .error .type

/-- Models `1. / (1. + distance)`, gensim/similarities/docsim.py 1078; `⊤` is `float('inf')`. -/
noncomputable def wmdSim : WithTop ℝ → ℝ
  | none => 0
  | some x => 1 / (1 + x)

/-- Models the similarities to a list of documents, gensim/similarities/docsim.py 1069-1089. -/
noncomputable def wmdRows {T : Type} (dist : List T → List T → WithTop ℝ) (corpus : List (List T)) :
    List (List T) → Answer
  | [] => .vec (corpus.map fun d => wmdSim (dist d []))
  | [q] => .vec (corpus.map fun d => wmdSim (dist d q))
  | qs => .mat (qs.map fun q => corpus.map fun d => wmdSim (dist d q))

/-- Models `WmdSimilarity.get_similarities`, gensim/similarities/docsim.py 1065-1089.  Documents are lists;
a document with words is no list of lists.  A single position cannot be indexed (`IndexError`), and position
0 is taken for a list of one document that cannot be iterated over. -/
noncomputable def wmdSims {T : Type} (dist : List T → List T → WithTop ℝ) (corpus : List (List T)) :
    SQuery (List T) → Except Err SAnswer
  | .doc q => .ok (.ans (wmdRows dist corpus [q]))
  | .docs qs => .ok (.ans (wmdRows dist corpus qs))
  | .positions ps =>
    match ps.mapM fun p => corpus[p]? with
    | some qs => .ok (.ans (wmdRows dist corpus qs))
    | none => .error .index
  | .position 0 => .error .type
  | .position (_ + 1) => .error .index

section
variable (srt : List ℝ → List Nat) (part : List ℝ → Nat → List Nat) {D : Type}

/-- Models `SimilarityABC.__getitem__` with `normalize = False`, gensim/interfaces.py 337-353; the best of
an array without dimension that is 0 are none (numpy before 2.1). -/
noncomputable def sGetitem (sims : SQuery D → Except Err SAnswer) (numBest : Option Int) (q : SQuery D) :
    Except Err SAnswer :=
  match sims q with
  | .error e => .error e
  | .ok .zero =>
    match numBest with
    | none => .ok .zero
    | some _ => .ok (.ans (.pairs []))
  | .ok (.ans a) =>
    match clip srt part false numBest a with
    | .ok a => .ok (.ans a)
    | .error e => .error e

/-- Models iterating over an answer; an array without dimension cannot be iterated over. -/
def sItems : SAnswer → Except Err (List Item)
  | .zero => .error .type
  | .ans a => .ok (items a)

/-- Models `for sim in self[chunk]`, gensim/interfaces.py 390-392. -/
noncomputable def sChunk (sims : SQuery D → Except Err SAnswer) (numBest : Option Int) (c : List Nat) :
    Except Err (List Item) :=
  match sGetitem srt part sims numBest (.positions c) with
  | .ok a => sItems a
  | .error e => .error e

/-- Models `SimilarityABC.__iter__` run to its end, gensim/interfaces.py 365-398, where `self.index` is
`numpy.arange(len(corpus))` (gensim/similarities/docsim.py 944, 1041): in chunks, -/
noncomputable def sIterChunks (sims : SQuery D → Except Err SAnswer) (numBest : Option Int)
    (chunksize count : Nat) : Except Err (List Item) :=
  match (Chunk.chunks chunksize (List.range count)).mapM fun c =>
      sChunk srt part sims numBest c with
  | .ok l => .ok l.flatten
  | .error e => .error e

/-- and one by one if `chunksize` is at most 1. -/
noncomputable def sIterSingly (sims : SQuery D → Except Err SAnswer) (numBest : Option Int)
    (count : Nat) : Except Err (List SAnswer) :=
  (List.range count).mapM fun p => sGetitem srt part sims numBest (.position p)

end
end Verif.MatSim
