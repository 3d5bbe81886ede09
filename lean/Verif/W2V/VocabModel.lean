import Verif.Utils.VocabModel

/-!
# Model of the Word2Vec vocabulary: `gensim/models/word2vec.py` `prepare_vocab`,
`gensim/models/keyedvectors.py` `set_vecattr`, `allocate_vecattrs`, `sort_by_descending_frequency`

Words are strings, so `get_index` never falls back to an integer key.  The null word is
in `NullModel`, `sample_int` in `SubsampleModel`.  Not modelled: logging.
-/

namespace Verif.W2V
open Verif PyDict Vocab

variable {τ : Type} [DecidableEq τ]

/-- the parts of a KeyedVectors the vocabulary lives in: index_to_key, key_to_index, expandos['count'] -/
structure WV (τ : Type) where
  i2k : List τ
  k2i : PyDict τ Nat
  counts : List Nat
deriving DecidableEq

/-- models keyedvectors.py:274-306 `allocate_vecattrs` for one attribute and target size `n` -/
def resize (l : List Nat) (n : Nat) : List Nat := l.take n ++ List.replicate (n - l.length) 0

/-- models keyedvectors.py:308-327 `set_vecattr(word, 'count', v)`; an unknown word is a KeyError in the
code and leaves the counts as they are here (it never happens below) -/
def setCount (wv : WV τ) (w : τ) (v : Nat) : WV τ :=
  { wv with counts := match get? wv.k2i w with
    | none => resize wv.counts wv.i2k.length
    | some i => (resize wv.counts wv.i2k.length).set i v }

/-- models keyedvectors.py:329-346 `get_vecattr(word, 'count')` -/
def getCount (wv : WV τ) (w : τ) : Option Nat := (get? wv.k2i w).bind (fun i => wv.counts[i]?)

/-- the settings of one call: trim_rule, min_count, max_final_vocab, sorted_vocab -/
structure Cfg (τ : Type) where
  rule : TrimRule τ
  minCount : Nat
  maxFinal : Option Nat
  sorted : Bool

/-- models word2vec.py:600-617: `effective_min_count` -/
def effective (cfg : Cfg τ) (raw : PyDict τ Nat) : Nat :=
  match cfg.maxFinal with
  | none => cfg.minCount
  | some m =>
    let sortedVocab := pySort (fun a b => decide (getD raw b 0 ≤ getD raw a 0)) (keys raw)
    max (match sortedVocab[m]? with
      | some w => getD raw w 0 + 1
      | none => 1) cfg.minCount

/-- `key_to_index[word] = len(index_to_key); index_to_key.append(word)` -/
def addWord (wv : WV τ) (w : τ) : WV τ :=
  { wv with i2k := wv.i2k ++ [w], k2i := PyDict.set wv.k2i w wv.i2k.length }

/-- models word2vec.py:631-640, one raw word of a fresh vocabulary -/
def freshWord (cfg : Cfg τ) (eff : Nat) (wv : WV τ) (p : τ × Nat) : WV τ :=
  if keepItem cfg.rule p.1 p.2 eff then addWord wv p.1 else wv

/-- models word2vec.py:664-679, one raw word of an update -/
def updateWord (cfg : Cfg τ) (eff : Nat) (wv : WV τ) (p : τ × Nat) : WV τ :=
  if keepItem cfg.rule p.1 p.2 eff then
    if contains wv.k2i p.1 then wv else addWord wv p.1
  else wv

/-- models keyedvectors.py:659-672 `sort_by_descending_frequency`; `argsort` is `numpy.argsort` -/
def sortDesc (argsort : List Nat → List Nat) (wv : WV τ) : WV τ :=
  if wv.i2k.length = 0 then wv
  else
    let idx := (argsort wv.counts).reverse
    let i2k := idx.filterMap (fun i => wv.i2k[i]?)
    { i2k := i2k
      counts := idx.filterMap (fun i => (resize wv.counts i2k.length)[i]?)
      k2i := ofPairs i2k.zipIdx }

/-- models word2vec.py:580-748 `prepare_vocab(update=False)`: the vocabulary and `drop_unique` -/
def prepareFresh (argsort : List Nat → List Nat) (cfg : Cfg τ) (raw : PyDict τ Nat) (wv : WV τ) : WV τ :=
  let wv := raw.foldl (freshWord cfg (effective cfg raw)) { wv with i2k := [], k2i := [] }
  let wv := wv.i2k.foldl (fun wv w => setCount wv w (getD raw w 0)) wv
  if cfg.sorted then sortDesc argsort wv else wv

/-- models word2vec.py:580-748 `prepare_vocab(update=True)` -/
def prepareUpdate (cfg : Cfg τ) (raw : PyDict τ Nat) (wv : WV τ) : WV τ :=
  let wv := raw.foldl (updateWord cfg (effective cfg raw)) wv
  let wv := { wv with counts := resize wv.counts wv.i2k.length }
  wv.i2k.foldl (fun wv w => setCount wv w ((getCount wv w).getD 0 + getD raw w 0)) wv

/-- a `build_vocab` call: `update`, its settings and the raw counts it scanned -/
structure Build (τ : Type) where
  update : Bool
  cfg : Cfg τ
  raw : PyDict τ Nat

/-- the model's vocabulary after one more `build_vocab` -/
def build (argsort : List Nat → List Nat) (wv : WV τ) (b : Build τ) : WV τ :=
  if b.update then prepareUpdate b.cfg b.raw wv else prepareFresh argsort b.cfg b.raw wv

end Verif.W2V
