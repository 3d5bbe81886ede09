import Verif.KeyedVectors.Model
import Verif.Matutils.SparseModel

/-!
# Model of similarity queries and of frequency sorting of `KeyedVectors` (`gensim/models/keyedvectors.py`)

Scores are elements of an ordered field; how a mean and a score are computed from vectors is left open (parameters).
`srt` is `np.argsort`, `part` is `np.argpartition`.
-/

namespace Verif.KV

open Verif Verif.Matutils

variable {κ V N M K : Type} [DecidableEq κ] [Field K] [LinearOrder K] [IsStrictOrderedRing K]

/-- one element of `positive + negative`: a key or a vector, with its weight (keyedvectors.py:748-755) -/
inductive Input (κ V K : Type) where
  | key (k : κ) (w : K)
  | vec (v : V) (w : K)

/-- models keyedvectors.py:759-764: the weighted vectors of the mean (with the norm of those that are looked up);
`none` is the `KeyError` of an unknown key -/
def resolve (asInt : κ → Option Int) (norm : V → N) (s : Store κ V N) : List (Input κ V K) →
    Option (List (K × V × Option N))
  | [] => some []
  | .vec v w :: l => (resolve asInt norm s l).map (fun r => (w, v, none) :: r)
  | .key k w :: l => (getNormed asInt norm s k).bind (fun p => (resolve asInt norm s l).map (fun r => (w, p.1, some p.2) :: r))

/-- models keyedvectors.py:758, 765-766: the set `all_keys` of rows of input keys -/
def inputRows (asInt : κ → Option Int) (s : Store κ V N) : List (Input κ V K) → List Nat
  | [] => []
  | .vec _ _ :: l => inputRows asInt s l
  | .key k _ :: l =>
    match getIndex asInt s k with
    | some i => if i ∈ inputRows asInt s l then inputRows asInt s l else i :: inputRows asInt s l
    | none => inputRows asInt s l

/-- models keyedvectors.py:774 `vectors[clip_start:clip_end]` scored -/
def scores (sim : M → V → N → K) (norm : V → N) (s : Store κ V N) (mean : M) (lo hi : Nat) : List K :=
  let s := fillNorms norm s
  ((List.zipWith (sim mean) s.vectors (s.norms.getD [])).take hi).drop lo

/-- models keyedvectors.py:739-743: the rows to search -/
def clip (s : Store κ V N) (lo : Nat) (hi : Option Nat) (restrict : Option Nat) : Nat × Nat :=
  let hi := match hi with
    | some 0 => s.vectors.length
    | some h => h
    | none => s.vectors.length
  match restrict with
  | some (r + 1) => (0, r + 1)
  | _ => (lo, hi)

/-- models keyedvectors.py:777-783 (and 1008-1011 with `lo = 0`): the best rows, without those of the input -/
def bestRows (srt : List K → List Nat) (part : List K → Nat → List Nat) (dists : List K) (lo : Nat) (exclude : List Nat)
    (topn : Nat) : List (Nat × K) :=
  let best := argsort srt part dists ((topn + exclude.length : Nat) : Int) true
  ((best.filter (fun i => i + lo ∉ exclude)).map (fun i => (i + lo, dists.getD i 0))).take topn

/-- models keyedvectors.py:690-784 `most_similar(positive, negative, topn, clip_start, clip_end, restrict_vocab)` with an
integer `topn` and no `indexer`; `inputs` is `positive + negative`.  `none` is the exception (unknown key, no input). -/
def mostSimilar (srt : List K → List Nat) (part : List K → Nat → List Nat) (asInt : κ → Option Int) (norm : V → N)
    (meanOf : List (K × V × Option N) → M) (sim : M → V → N → K) (s : Store κ V N) (inputs : List (Input κ V K))
    (topn : Int) (lo : Nat) (hi restrict : Option Nat) : Option (List (Option κ × K)) :=
  if topn < 1 then some []
  else
    let (a, b) := clip s lo hi restrict
    (resolve asInt norm s inputs).bind (fun terms =>
      if terms = [] then none
      else some ((bestRows srt part (scores sim norm s (meanOf terms) a b) a (inputRows asInt s inputs) topn.toNat).map
        (fun r => (s.indexToKey.getD r.1 none, r.2))))

/-- models keyedvectors.py:946-1011 `most_similar_cosmul(positive, negative, topn)` with string words:
`score` is the product of equation (4) -/
def mostSimilarCosmul (srt : List K → List Nat) (part : List K → Nat → List Nat) (asInt : κ → Option Int) (norm : V → N)
    (score : List (K × V × Option N) → V → N → K) (s : Store κ V N) (inputs : List (Input κ V K)) (topn : Int) :
    Option (List (Option κ × K)) :=
  if topn < 1 then some []
  else
    (resolve asInt norm s inputs).map (fun terms =>
      (bestRows srt part (scores (fun t v n => score t v n) norm s terms 0 s.vectors.length) 0
        (inputRows asInt s inputs) topn.toNat).map (fun r => (s.indexToKey.getD r.1 none, r.2)))

/-- models keyedvectors.py:569-575 `closer_than(key1, key2)`; `dist` is the distance of two vectors -/
def closerThan (asInt : κ → Option Int) (dist : V → V → K) (s : Store κ V N) (a b : κ) : Option (List (Option κ)) :=
  (getIndex asInt s a).bind (fun i => (getIndex asInt s b).bind (fun j =>
    (s.vectors[i]?).map (fun v =>
      let all := s.vectors.map (dist v)
      ((List.range all.length).filter (fun x => decide (all.getD x 0 < all.getD j 0) && decide (x ≠ i))).map
        (fun x => s.indexToKey.getD x none))))

/-- models keyedvectors.py:581-583 `rank(key1, key2)` -/
def rank (asInt : κ → Option Int) (dist : V → V → K) (s : Store κ V N) (a b : κ) : Option Nat :=
  (closerThan asInt dist s a b).map (fun l => l.length + 1)

/-- models keyedvectors.py:659-672 `sort_by_descending_frequency()`; `counts` is the `count` attribute -/
def sortFreq (srt : List K → List Nat) (s : Store κ V N) (counts : List K) : Store κ V N × List K :=
  if s.indexToKey = [] then (s, counts)
  else
    let idx := (srt counts).reverse
    let names := idx.map (fun i => s.indexToKey.getD i none)
    ({ s with
        indexToKey := names
        vectors := if s.vectors = [] then [] else idx.filterMap (fun i => s.vectors[i]?)
        keyToIndex := names.zipIdx.foldl (fun d p => match p.1 with
          | some k => d.set k p.2
          | none => d) [] },
      idx.map (fun i => counts.getD i 0))

/-- models keyedvectors.py:331-350 `get_vecattr(key, attr)` with the array of the attribute -/
def getAttr {A : Type} (asInt : κ → Option Int) (s : Store κ V N) (attr : List A) (k : κ) : Option A :=
  (getIndex asInt s k).bind (fun i => attr[i]?)

/-- models keyedvectors.py:290-306 `allocate_vecattrs`: the array gets the length of `index_to_key` -/
def allocAttr {A : Type} (zero : A) (size : Nat) (attr : List A) : List A :=
  if attr.length = size then attr else attr.take size ++ List.replicate (size - attr.length) zero

/-- models keyedvectors.py:308-329 `set_vecattr(key, attr, val)` -/
def setAttr {A : Type} (asInt : κ → Option Int) (zero : A) (s : Store κ V N) (attr : List A) (k : κ) (v : A) :
    Option (List A) :=
  (getIndex asInt s k).map (fun i => (allocAttr zero s.indexToKey.length attr).set i v)

end Verif.KV
