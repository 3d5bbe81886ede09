import Verif.W2V.VocabModel

/-!
# Model of the null word of concatenating models: `gensim/models/word2vec.py` `add_null_word` inside
`prepare_vocab`, as used by `Doc2Vec(dm_concat=1)` and `Word2Vec(null_word=1)`
-/

namespace Verif.W2V
open Verif PyDict Vocab

variable {τ : Type} [DecidableEq τ]

/-- models word2vec.py:781-785 `add_null_word`; `nul` is the word `'\0'` -/
def addNull (nul : τ) (wv : WV τ) : WV τ := setCount (addWord wv nul) nul 1

/-- models word2vec.py:580-748 `prepare_vocab(update=False)` of a model with `null_word`: the null word is
added after the counts are set and before the words are sorted -/
def prepareFreshNull (argsort : List Nat → List Nat) (nul : τ) (cfg : Cfg τ) (raw : PyDict τ Nat) (wv : WV τ) : WV τ :=
  let wv := prepareFresh argsort { cfg with sorted := false } raw wv
  let wv := addNull nul wv
  if cfg.sorted then sortDesc argsort wv else wv

/-- models word2vec.py:580-748 `prepare_vocab(update=True)` of a model with `null_word` -/
def prepareUpdateNull (nul : τ) (cfg : Cfg τ) (raw : PyDict τ Nat) (wv : WV τ) : WV τ :=
  addNull nul (prepareUpdate cfg raw wv)

/-- models word2vec.py:437-503 `build_vocab` for the vocabulary of a model with `null_word` -/
def buildNull (argsort : List Nat → List Nat) (nul : τ) (wv : WV τ) (b : Build τ) : WV τ :=
  if b.update then prepareUpdateNull nul b.cfg b.raw wv else prepareFreshNull argsort nul b.cfg b.raw wv

/-- models word2vec.py:803-815: the weights `make_cum_table` adds up, one per row of the vocabulary;
`pow` is `count ** ns_exponent` -/
def rowWeights {K : Type} (pow : Nat → K) (wv : WV τ) : List K := wv.counts.map pow

end Verif.W2V
