/-
Model of `FastTextKeyedVectors`: full-word vectors composed from the word's own row and its
n-gram rows, vectors of out-of-vocabulary words, and saving/loading
(gensim/models/fasttext.py:985-1198, 455-462).

A vector is a function from coordinates `ι` to a field `K` (the code uses float32 arrays; rounding
is not modelled).  The vocabulary is the list `index_to_key`, without duplicates, so a word's index
is its position.
-/
import Verif.FastText.NgramModel
import Mathlib.Algebra.Field.Basic
import Mathlib.Algebra.Group.Pi.Basic
import Mathlib.Algebra.Order.Ring.Rat

namespace Verif.FastText

variable {ι K : Type} [Field K]

/-- The attributes of `FastTextKeyedVectors` that lookups, training and saving use
    (fasttext.py:935-984).  `none` in the last two is the state of attributes that were ignored when
    saving. -/
structure FTV (ι K : Type) where
  words : List (List Char)
  minN : Nat
  maxN : Nat
  bucket : Nat
  vocab : List (ι → K)
  ngrams : List (ι → K)
  bucketsWord : Option (List (List Nat))
  vectors : Option (List (ι → K))

/-- `recalc_char_ngram_buckets` (fasttext.py:1182-1198). -/
def FTV.recalcBuckets (s : FTV ι K) : FTV ι K :=
  if s.bucket = 0 then { s with bucketsWord := some (s.words.map fun _ => []) }
  else { s with bucketsWord := some (s.words.map fun w => ngramHashes w s.minN s.maxN s.bucket) }

/-- `for nh in ngram_buckets: v += vectors_ngrams[nh]` (fasttext.py:1178-1179, 1113-1114). -/
def addRows (ngrams : List (ι → K)) (v : ι → K) (hs : List Nat) : ι → K :=
  hs.foldl (fun v nh => v + ngrams.getD nh 0) v

/-- The loop body of `adjust_vectors` (fasttext.py:1177-1180). -/
def composeRow (ngrams : List (ι → K)) (v : ι → K) (hs : List Nat) : ι → K :=
  fun j => addRows ngrams v hs j / ((hs.length : K) + 1)

/-- `adjust_vectors` (fasttext.py:1163-1180); `none` when a row or bucket list is missing
    (`IndexError`/`TypeError`). -/
def FTV.adjust (s : FTV ι K) : Option (FTV ι K) :=
  if s.bucket = 0 then some { s with vectors := some s.vocab }
  else match s.bucketsWord with
    | none => none
    | some bw =>
      if s.words.length ≤ s.vocab.length ∧ s.words.length ≤ bw.length then
        let rows := List.zipWith (composeRow s.ngrams) (s.vocab.take s.words.length)
          (bw.take s.words.length) ++ s.vocab.drop s.words.length
        some { s with vectors := some rows }
      else none

/-- The result of `get_vector(word)` (fasttext.py:1073-1119, `norm=False`). -/
inductive Lookup (ι K : Type) where
  | keyError
  | vector (v : ι → K)

/-- `get_vector(word)`; a missing row of `vectors` cannot be told from the model's default 0. -/
def FTV.get (s : FTV ι K) (w : List Char) : Lookup ι K :=
  if w ∈ s.words then .vector ((s.vectors.getD []).getD (s.words.idxOf w) 0)
  else if s.bucket = 0 then .keyError
  else
    let hs := ngramHashes w s.minN s.maxN s.bucket
    if hs.length = 0 then .vector 0
    else .vector (fun j => addRows s.ngrams 0 hs j / (hs.length : K))

/-- `__contains__` (fasttext.py:1018-1048). -/
def FTV.contains (_ : FTV ι K) (_ : List Char) : Bool := true

/-- `save`: `vectors` and `buckets_word` are not stored (fasttext.py:1066-1071); loading sets ignored
    attributes to `None` (utils.py `_load_specials`). -/
def FTV.save (s : FTV ι K) : FTV ι K := { s with bucketsWord := none, vectors := none }

/-- `_load_specials` (fasttext.py:985-1016): recompute what is missing.
    An empty bucket list counts as missing. -/
def FTV.load (s : FTV ι K) : Option (FTV ι K) :=
  let s := if (s.bucketsWord.getD []).isEmpty then s.recalcBuckets else s
  if s.vectors.isNone then s.adjust else some s

/-- `resize_vectors` (fasttext.py:1121-1133) after new words were appended, with `newVocab` and
    `newNgrams` the re-dimensioned arrays. -/
def FTV.resize (s : FTV ι K) (words : List (List Char)) (newVocab newNgrams : List (ι → K)) :
    Option (FTV ι K) :=
  FTV.adjust (FTV.recalcBuckets { s with words := words, vocab := newVocab, ngrams := newNgrams })

/-- The end of training (`_do_train_epoch`s overwrite the two arrays in place; then
    `adjust_vectors`, fasttext.py:455-460). -/
def FTV.train (s : FTV ι K) (newVocab newNgrams : List (ι → K)) : Option (FTV ι K) :=
  FTV.adjust { s with vocab := newVocab, ngrams := newNgrams }

/-- `kv[word] = v` for a word that is already present, inherited from `KeyedVectors`
    (keyedvectors.py:481-540, `add_vectors(..., replace=True)`): only `vectors` is written.
    For `bucket = 0` `vectors` aliases `vectors_vocab`; the model of this function is for
    `bucket > 0`. -/
def FTV.overwrite (s : FTV ι K) (w : List Char) (v : ι → K) : FTV ι K :=
  { s with vectors := s.vectors.map fun vs => vs.set (s.words.idxOf w) v }

/-- `kv.add_vector(word, v)` for a new word (keyedvectors.py:420-560): `index_to_key` and `vectors`
    grow, the fastText arrays do not. -/
def FTV.append (s : FTV ι K) (w : List Char) (v : ι → K) : FTV ι K :=
  { s with words := s.words ++ [w], vectors := s.vectors.map fun vs => vs ++ [v] }

end Verif.FastText
