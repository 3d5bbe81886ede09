import Verif.W2V.VocabModel
import Verif.W2V.NegModel
import Mathlib.Data.Real.Sqrt
import Mathlib.Algebra.Order.Floor.Semiring

/-!
# Downsampling of frequent words (gensim/models/word2vec.py, gensim/models/word2vec_inner.pyx)

Floating-point numbers are real numbers here.
-/

namespace Verif.W2V
open Verif PyDict Vocab

variable {τ : Type} [DecidableEq τ]

/-- Models `threshold_count`, gensim/models/word2vec.py 694-702. -/
noncomputable def thresholdCount (sample : ℝ) (retainTotal : ℕ) : ℝ :=
  if sample = 0 then retainTotal
  else if sample < 1 then sample * retainTotal
  else ((⌊sample * (3 + √5) / 2⌋₊ : ℕ) : ℝ)

/-- Models `word_probability`, gensim/models/word2vec.py 707-713. -/
noncomputable def wordProbability (threshold : ℝ) (v : ℕ) : ℝ :=
  let p := (√(v / threshold) + 1) * (threshold / v)
  if p < 1 then p else 1

/-- Models the `sample_int` of a probability, gensim/models/word2vec.py 715. -/
noncomputable def sampleInt (p : ℝ) : ℕ := ⌊p * (2 ^ 32 - 1)⌋₊

/-- Models the setting of all `sample_int`, gensim/models/word2vec.py 690-715, as a function of the word.
With `update=True` the retained words are the same ones, new words before old words. -/
noncomputable def setSampleInts (sample : ℝ) (cfg : Cfg τ) (raw : PyDict τ Nat) (old : τ → ℕ) : τ → ℕ :=
  let retained := raw.filter fun p => keepItem cfg.rule p.1 p.2 (effective cfg raw)
  let retainTotal := (retained.map Prod.snd).sum
  retained.foldl (fun s p =>
    Function.update s p.1 (sampleInt (wordProbability (thresholdCount sample retainTotal) p.2))) old

/-- Models `random_int32`, gensim/models/word2vec_inner.pyx 154-157: the number drawn; the state becomes
`nextRandom r`. -/
def randomInt32 (r : Nat) : Nat := r >>> 16

/-- Models the choice of the words of a sentence that are trained, gensim/models/word2vec_inner.pyx
543-556, for words that are in the vocabulary and below `MAX_SENTENCE_LEN`; `r` is the state of the
generator.  The result has the words and the state afterwards. -/
def subsample (useSample : Bool) (sampleInts : Nat → Nat) : List Nat → Nat → List Nat × Nat
  | [], r => ([], r)
  | w :: ws, r =>
    if useSample then
      let rest := subsample useSample sampleInts ws (nextRandom r)
      if sampleInts w < randomInt32 r then rest else (w :: rest.1, rest.2)
    else
      let rest := subsample useSample sampleInts ws r
      (w :: rest.1, rest.2)

end Verif.W2V
